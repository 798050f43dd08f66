# Formal model of rez-next in Lean 4: design

## Layout

* `lean/Verif/Base/*`    text and list primitives shared by the model (Rust `str` operations on `List Char`)
* `lean/Verif/Model/*`   the model, one file per area; every definition cites the file and lines in `/repo`
* `lean/Verif/Spec/*`    small independent specifications used in theorem statements
* `lean/Verif/Lemmas/*`  helper lemmas and proofs
* `lean/Verif/Props/*`   the property theorems only (`C01_...`), each with a non-vacuity `example`

A theorem called `..._false` is a machine-checked refutation: the property as stated in `properties.jsonl`
does not hold of the code, and the theorem gives the witness.  Beside it stands a `..._partial` theorem with
the hypothesis that makes the property true.

## Trusted base

* Lean 4.33.0's kernel.
* Axioms: only `propext`, `Classical.choice`, `Quot.sound`. No axiom is added, no `sorry`, `native_decide`,
  `bv_decide`. The last section lists the theorems of `MANIFEST.json` by the axioms `#print axioms` reports.
* The reading of the Rust source: the code is not run. Every model definition cites the lines it models and
  states its simplifications.

## Modelling conventions

* A Rust `&str`/`String` is a `List Char`. `str` ordering is byte-wise on UTF-8, which equals code-point
  order, so strings compare lexicographically by `Char.toNat`.
* `i64`/`u64` values are `Int`/`Nat` together with the range check where parsing or arithmetic can leave the
  range. A panic path is an explicit error value.
* A `HashMap` is an association list; where the iteration order is observable the order is a parameter and
  the theorem is stated for every order.
* `&mut self` methods return the new state. Locks, tasks and crashes are modelled as explicit step lists: an
  operation is the list of its atomic effects, a crash keeps a prefix of it, and an interleaving is a merge.
* Clocks, file modification times and hash functions are parameters.

## Plan per property

| id | what is modelled | how it is proved |
|----|------------------|------------------|
| C01 | `compare_single_token`, `compare_token_strings`, `compare_rez` on all strings | case analysis + induction on token and segment lists |
| C02 | same | refutation by witness; partial: equality with a lexicographic key order on versions of one length, or without trailing `0` token, digit runs below 2^64 |
| C03 | `Hash` as a function of the printed form | refutation; partial via reconstruction of the string from tokens and separators |
| C04 | `parse`, tokenizer | induction on the input |
| C05 | same, against a grammar spec | tokenizer correctness both ways |
| C06 | `inf`, `empty` | case analysis |
| C07 | numeric tokens | refutation above 2^64; partial below |
| C08 | `has_prefix` | induction |
| C09 | `is_prerelease` | unfolding against an infix spec |
| C10 | range parser | induction over the rendered constraint lists |
| C11–C15, C17 | `VersionRange` operations | refutations; partial via a bound-contradiction lemma under transitivity |
| C16 | serde-skipped fields | refutation; partial for the any range |
| C18 | `Compatible` bound | direct; overflow branch explicit |
| C19 | `and`/`or` | induction over nested constraints |
| C20–C22 | requirement parser/printer, both requirement types | refutations and partial round trip on a named fragment |
| C23–C31 | resolver state machine | invariants by induction over the steps of the loop; refutations by explicit repositories |
| C32–C35 | `DependencyGraph` | invariant over operation histories; Kahn's algorithm; DFS |
| C36–C38 | A* search | invariants over the queue loop, any queue order |
| C39, C40, C85–C87 | solver cache: get, put, evictions, statistics | invariants over operation histories with any clock |
| C41 | lock programs of both caches | interleaving semantics; deadlock reachable or an acyclic order of acquisition for any number of tasks |
| C42–C44, C88 | two-level cache | refutations; invariants over histories with any eviction order; interleavings for the concurrent claims |
| C45, C89–C91 | repository cache | history of puts, touches and restarts against modification times |
| C46, C92, C93 | file cache of packages | history with crashes inside `put`; injective or colliding hash |
| C47–C50, C95–C97 | payload cache as file-system effects, with crashes and interleavings | invariants over effect prefixes of every reachable state; refutations |
| C51, C52 | base-26 names and unique links | numeral bijection; refutation past 36 links |
| C53–C55, C98 | orderers | permutation lemmas; refutations |
| C56, C57, C99, C100 | both package filters, globs | case analysis; a spec of globs; refutation of the round trip |
| C58, C101–C105 | rex statements, parser, expansion, executor | folds over statements; splitting lemmas |
| C59, C106 | shell scripts | small readings of bash, fish and PowerShell (Spec/Shell) run on the generated script |
| C60–C62, C104 | context environment | folds; permutation invariance |
| C63, C64, C107, C108 | suites | invariants over histories; fold lemmas; crash prefixes of `save` |
| C65, C66, C109, C110 | both configurations | mutual induction on JSON trees; perm-invariance over variables |
| C67, C68, C111 | simple repositories | histories of queries and file changes |
| C69 | search | filters over listed packages |
| C70, C72 | requirement lists, conflict lists, hook registry | induction over histories |
| C71 | text utilities | induction |
| C73, C114–C118 | contexts: validation, execution, files, export lines, tools | case analysis; codecs as parameters |
| C74–C78 | requirement constraints, conditions, parser aborts, wildcards | case analysis and induction over components |
| C79–C81 | graph statistics, conflict reports, exclusions | chains in acyclic graphs; invariant over histories |
| C82 | reported failures of a resolve | invariant of the resolver loop; refutation for weak requirements |
| C83 | completeness of the A* search | every solution keeps a reachable, unexpanded state inside it |
| C84 | choice of a variant | fold for the maximum over the keys |
| C94 | variant handles | injectivity of the printed form |
| C112, C113 | reverse dependencies and plugins | layers of a breadth-first search; refutations by explicit directories |
| C119–C121 | copying, moving, removing packages as steps on a tree of paths | frame lemmas for step lists; every prefix is a crash point |
| C122, C123 | commands cp, mv, rm | the same steps, plus what is chosen |
| C124 | relative times | case analysis, decimal numerals |
| C125 | wildcard expansion of requirements | refutations; the wildcard-free case |
| C126–C130 | the filesystem package repository: hiding, removing, lookups | the steps of C119–C121; an invariant over histories of calls; every prefix is a crash point |
| C131–C133 | repositories scanned once: answers, searches, duplicates | the map of packages as a fold over the files; lookups characterised by membership; sorting as in C54 |
| C134 | a package as its 40 fields, values as trees; codecs (JSON, YAML, TOML, bincode, gzip) as parameters that read what they write | field by field for serde, tags as segments for XML; an injective encoding shows that such codecs exist |
| C135 | the text as written; a small grammar of Python as specification | each part of the text derives its statement; the parts are appended |
| C136 | the filters as folds | the folds are computed by membership |
| C137 | the syntax tree; the loader statement by statement; as specification a reference semantics of the same fragment of Python, with a flag that marks where the two are known to differ | with the flag on, the loader follows the reference expression by expression, and its fields agree with the variables after every statement |
| C138 | command functions as texts; as specification the actions that Python takes, and C102's reading of Rex | each statement that is kept is read as its action; variables that are not needed do not matter |
| C139 | C135's writer and C137's loader, the Python parser as a parameter that reads C135's grammar | texts of the grammar can be read in one way only; each assignment sets its field |
| C140 | `BuildEnvironment` on texts, machines and settings as parameters | joining of plain names is injective; refutations by witness |
| C141 | the tables of variables and the order in which they are inserted | last insertion wins, by induction on tables; refutations |
| C142 | `execute_build_steps` over any step function on any world | induction on the steps; refutations |
| C143 | `execute_step`, `run_package_tests` | induction on the sorted tests; sorting does not depend on the order |
| C144 | the manager and the tasks as acts of a schedule | invariant of all acts; refutation by a schedule |
| C145 | same | invariant on the numbers; refutations by schedules |
| C146 | same, with the steps that ran and the results of waits | invariant; steps left decrease with each turn; refutations |
| C147 | Copying as steps on a file system, directories listed when reached, recursion with fuel | Induction on the fuel: steps stay below the destination, and a finished copy is the source tree; depth of the tree bounds the fuel; a measure for endless copying |
| C148 | `detect`, `detect_with_package` over any set of files | an inductive specification; case analysis over the table of project files |
| C149 | each step of each system as the programs it starts on any machine, every start written down | each step follows a table of programs; C142 joins the steps |
| C150 | the command lines as texts; as specification the words a shell sees | induction over the words of a line |
| C151 | `replace` in turn for each placeholder | induction over the pieces of a command, one placeholder at a time |
| C152 | `parse_source` on texts, the git calls as command lines | splitting lemmas; refutations for all texts of a shape |
| C153 | the name of a download and its path | lexical containment; refutation for every target |
| C154 | the build command over any results of the builder | induction over the variants |
| C155 | installing an archive as steps on a file system; archives are lists of entries, downloads and hashes parameters | invariants of unpacking and copying by induction on entries and fuel; every prefix is a crash point |
| C156 | `parse_variants`, the selection of the release command | an independent description of numbers and intervals; order by first positions |
| C157 | the release command on any machine, every act and answer written down | the log is followed through each step; failures by cases |
| C158 | `ReleaseManager::release` on any machine, every act and answer written down | an inductive specification of the steps; each step against it |
| C159 | `get_install_path`, `expand_home`, the paths of all acts | each act by cases; paths of components |
| C160 | what git, hg and svn hold or print; events of a git repository | induction over histories; texts that survive trimming and splitting in lines |
| C161 | `parse_hg_timestamp` with its panic, both `get_metadata` | first positions of characters; joined lines read back |
| C162 | the search of `depends`, over any packages | breadth-first invariant: levels against distances; induction on the queue |
| C163 | `quote_shell_argument`, `expand_alias`, the script of a run | a small reader of shell words; induction over text |
| C164 | `context_environment` and the variables given to the started program | last writer of each variable through all maps |
| C165 | the env command on any machine, every act written down | cases of every failure; what acts make and remove |
| C166 | `print_environment` | the lines read by the shell reader of C59 |
| C167 | `find_requested_test_names`, both | a small specification of the regular expressions that patterns become; induction over patterns |
| C168 | the test command on any machine, every program started written down | induction over the tests; each result against the end of its program |
| C169 | `load_test_definitions`, `extract_tests_from_package` | first position that can be resolved; cases of the variables in place |
| C170 | `split_whitespace` against the words of the shell | induction over words |
| C171 | `execute` of the bundle command: arguments and names | cases of the last argument |
| C172 | making a bundle as steps on the file system | induction over packages; the copying of C149 with both trees apart |
| C173 | `generate_activation_scripts` with the scripts of C100 and the shell of its specification | induction over packages; the script as a list of exports |
| C174 | the descriptions | each file is written once and lies apart from those after it |
| C175 | `find_packages_to_diff` on the repositories of C67, with their memory | sortedness of the answer (C67); cases of the last hyphen |
| C176 | `compare_packages`, the text and the JSON output | set differences; a scanner for commas that JSON does not allow |
| C177 | `show_package_status`, totals, directory counts | sortedness of the answer; the family with the empty name |
| C178, C181 | the version regex of the library, the scanner of the command, the flags and the tools | induction over the output; the scanner exactly as a specification of its first run |
| C179, C182 | `bind`, the built-in binders, the command, the quick start, as steps on a disk | every step is a directory on the way or the file; this is kept by prefixes and sequences |
| C180 | both generators of `package.py` | the Python fragment of C135 with single quotes |
| C183 | `list_bound_packages_in` | membership and sortedness of insertion sort |
| C184, C185 | the name of a specification; the two readers | operators cannot begin in the name; both readers as folds whose invariant is the specification |
| C186 | `execute` with a disk and a pip that is a parameter; `create_rez_package` as steps | steps near a directory; the disk stays one; induction over the specifications |
| C187 | the text of the file | the Python fragment of C135 |
| C188 | patterns as lists of parts and a matcher | the matcher against an inductive relation; what follows each slash against the last parts of the path |
| C189 | the recursive walk with levels left; the files of each directory | induction on the levels: reached by a path none of whose directories is left out; prefixes differ, so nothing is counted twice |
| C190, C192 | scan, lookup, refresh and clear as steps on a disk and a cache | invariant over all histories: every entry is what was in the file at its time and length; eviction as the front of a sorted list |
| C191 | the walk with a stack, the sorted list of files, the cache | the stack unwinds (induction on depth below the longest path); strictly sorted lists with the same members are equal |
| C193 | the matcher field by field | membership and sum against a relation on fields and texts; case analysis of the switches |
| C194, C197 | the search with repositories, dates and the sort as parameters | filterMap over what is stored; permutations; sorted lists under take |
| C195, C196 | one fold that keeps the better result for each name | invariant over the results seen: keys once, values from the list, nothing better |
| C198 | printing as a list of rows and a panic flag | byte prefixes by induction; the panic characterised by a split of the text |
| C199, C200, C201 | contexts, environments and solvers around a resolver that is a parameter | round trip through two parsers; case analysis of the answers |
| C202, C204 | maps filled by folds over packages | one lemma: the last element with a value; patterns as an inductive relation |
| C203 | the solve command as a list of acts | membership of lines against an inductive relation; sublists |
| C205 | the sort is a parameter that sorts total orders | the head of a sorted permutation |
| C206–C207 | `make_repo_manager`, the filters and sorts of the queries, `list_packages` of the manager | from C67 (what a manager finds): the sort meets a list in order and keeps it (`Keeps`), or a consistent comparison; induction over the repositories with the invariant that each has seen only its directory |
| C208–C209 | texts split at the last hyphen, prefixes, maxima, the choice of a version | induction over texts and lists; the choice from the order of what is found |
| C210 | the strategies of `get_package_from_uri`, handles, families on disk | induction over the parts of the URI; C67 for the strategies that ask repositories |
| C211 | the state machine of `parser.rs` step by step; the pool with calls as two locked sections | induction over the text with the state of the machine; an invariant of the pool over every order of sections |
| C212 | data as JSON values, `dict_to_python_code`, `format_python_string`, the order of keys | a grammar of Python expressions and files (`Spec/Attributes.lean`); induction over data; the sort by a total, transitive comparison |
| C213 | skipping, validation and formats of `dump_package_data` | from C212 and lookups in filtered objects |
| C214 | `as_block_string` | a grammar of YAML scalars; induction over lines |
| C215 | the loop with the queue as a heap over estimates, costs as exact rationals | loop invariants (every way to a solution goes through the queue), induction on the length of a solution; the queue refines the free choice of C36, C37 and C83 |
| C216 | every heuristic, the factory and the adaptive weights | induction over the steps to a goal; congruence of the loop in the heuristic |
| C217 | self-update as a list of steps, the last one a rename; downloads, archives and checksums are parameters | case analysis over the run; every prefix of the steps; induction over the lines of the list of checksums |
| C218 | patterns, queue and statistics of the preheater as functions of the history; its locks | induction over the history; telescoping sum; acyclic order of locks, or a deadlock reached |
| C219 | the analyses and the tuner, calls as tasks whose steps interleave; its locks | invariant over all interleavings; case analysis; acyclic order of locks |
| C220 | completion as a function of line, cursor and packages; the choice of the program to forward to | words of a text as a relation; induction over the text for byte positions |
| C221 | the scan of a finite tree, types, summary, validation | mutual induction over trees |
| C222 | the search in PATH, results of commands, the probe for writability | induction over PATH and over the path |
| C223 | the two maps and the list of entries | maps as lists; entries compared with a specification by name |
| C224 | the packages of all families, the first requirement that counts, both groups and the printed lines | multiset of packages by counting; induction over packages and requirements |
| C225 | conversion of specifiers and requirements, names, dependents, package.py and writing it | the converted text against the meaning of ranges (C10) and of requirements, for every list of comparisons; dependents by counting over C207 |
| C226 | the command as steps on a file system | every prefix of the steps by induction over requests and directories; the table against a specification by paths |
| C227 | the command as a function of context, directory and repositories | the choice from the theorems on families and sorting; the texts by derivations in fragments of YAML and Python |
| C228 | the command as a function of files, variables and options | lists by permutations and membership; the code by running it in the models of the shells; the graph by the list of its arrows |
| C229 | each command as load, change, save on the file system of `Model/Suite.lean` | by induction on the commands, from the round trip of C107 and the contents of C63 |
| C230 | handles as maps up to the order of iteration; resources as records | the sorted texts given to the hasher determine the map; keys are compared one by one |
| C231 | the Python methods over the modelled versions and ranges; ranges a program can build as an inductive predicate | texts of tokens and separators for `trim` and `next`; the alternatives of a joined text; balanced brackets make the text of a range determine how it was built |
| C232 | search, formatting and the command as functions of packages, machine and arguments | first answering package of a sorted list; replacing distinct placeholders piece by piece; the sections of a package as an inductive predicate |
| C233 | the variables, the script and the status as functions of the process; the script is run by the shells of C59 | the map of variables read off a fold; header lines are comments, then C59; the status read off the filtered environment |
| C234 | the cache as a state with calls; reductions as a list and a counter | induction over the calls from the end; places counted by an inductive relation |
| C235 | the monitor as counters with calls; threads that report memory as load, compare and store steps | induction over the calls; an invariant over every schedule of the threads; the sorted histogram counted by buckets |
| C236 | the statistics as counters and quotients; entries with their times | case analysis and field arithmetic; induction over accesses |
| C237 | managers as lists, after any registrations | induction over registrations; sorted lists; the nine names by the kernel |
| C238 | registries after any registrations; files and readers are parameters | induction over registrations; case analysis |
| C239 | on top of the release manager and the repositories | from C158 and C159; induction over directories for the names packages are kept under |
| C240 | on top of the repositories; scripts as texts | induction over directories; splitting into lines |
| C241 | on top of the detection of build systems; starting and waiting for a build are parameters | cases; agreement with the detection of C143 by looking at each file |
| C242 | on top of package files and requirements; Python values as in package files | both directions attribute by attribute; the fragment of Python of C135 for the text |
| C243 | on top of the repositories; the directories and the order of the map are parameters | the listed plugins against an inductive relation; grouping by induction over the list; the choice of the package from C67 |
| C244 | the text of a manifest and its reader line by line; manifests by directory | the reader is a fold; an invariant for any list of lines, and the lines of the written text |
| C245 | on top of the repositories; what a path holds is a parameter | from C67; versions are read back from their texts (C04); names by induction over the directories |
| C246 | on top of the filters that keep rules as text; a dictionary is a map of values of package files | from C56 and C57; calls become additions by induction; the first match by induction over the calls |
| C247 | directories are lists of entries; the head of the page and the time are parameters | escaping is shown to work character by character; a browser is a small function that reads the five references back; tags are counted; sorting by a total, transitive order |
| C248 | the parser of arguments and the commands are parameters | the groups between double dashes by induction over the arguments; cases of the first group as parsed |
| C249 | the disk is a function from paths, lists of names, to what is there; the formats are those of C134 | cases of what is at the two paths; the YAML round trip from C134 |
| C250 | the four scripts are told apart by their shell | cases of the text in lower case; the shell found is one of those listed |
| C251 | the calls from Python on the suites of C63, C64, C107 and C108 | induction over the calls from the last one; the contexts follow C63, the disk is touched at the saved path only |
| C252 | the whole payload cache as hash directories at places, over the directory of C47 and C48, and the codes, constants and descriptions in Python | membership in the nested listing; cases of looking up a handle; the copied files leave metadata alone by induction over the payload; every status for the codes |

Nothing in the list is declared not applicable.

## What is modelled

| files of the repository | model | modelled | left out |
|---|---|---|---|
| `rez-next-version/src/version/*`, `version_token`, `range` | Version, Range | parsing, printing, comparison, hashing, all range operations | the Python bindings; `parser.rs` has a row of its own |
| `rez-next-package/src/requirement/*`, `package/requirement.rs` | Requirement | both requirement types, parsers and printers | serde derives other than the skipped fields of C16 |
| `rez-next-solver/src/graph.rs`, `conflict.rs` | Graph | all operations and the statistics | the cached fields that only save time |
| `rez-next-solver/src/dependency_resolver.rs`, `resolution_state.rs` | Resolver | the whole loop with its backtracking | wall-clock statistics, logging |
| `rez-next-solver/src/astar/*` | AStar | states, successors, identity, the loop | statistics; heuristics and the queue have a row of their own, here the order of the queue is arbitrary |
| `rez-next-solver/src/cache.rs` | SolverCache, CacheLocks, Locks | get, put, remove, cleanup, evictions, statistics; the locks each takes, in order | the resolution result itself (an opaque value) |
| `rez-next-cache/src/intelligent_manager.rs` | TwoLevel | get, put, remove, clear, promotion, demotion, evictions | preheating and tuning beyond their effect on the two maps (they have none) |
| `rez-next-repository/src/cache.rs` | RepoCache, CacheLocks | get, put, cleanup, index load, statistics, locks | bytes of the index file |
| `rez-next-package-cache/src/lib.rs` | FileCache | both caches, validity, statistics, crashes inside put | the hash function and codec (parameters) |
| `rez-next-package/src/package_cache.rs` | Payload, Handle | add, remove, find, clean, space checks, handle texts, as file-system steps | byte contents of payload files (a payload is a list of its files) |
| `rez-next-util/src/base26.rs`, `string.rs`, `time.rs` | Base26, Util | all functions | localisation of numbers |
| `rez-next-package/src/package_order.rs` | PackageOrder | all orderers and their configuration form | - |
| `rez-next-package/src/filter.rs`, `rez-next-package-filter/src/*` | Filter, RuleFilter | rules, filters, lists, configuration form | the regex engine (a parameter) |
| `rez-next-rex/src/*` | Rex, RexShell | statements, parser, expansion, executor, scripts of five shells | running a shell: Spec/Shell gives small readings of three |
| `rez-next-context/src/environment.rs` | Environment, RexShell | all phases, normalisation, diff, scripts | cmd scripts are generated but not read |
| `rez-next-context/src/{context,execution,serialization,resolved_context,shell}.rs` | Context | validation, environments of started processes, saving, export lines, tools | process output, timeouts |
| `rez-next-suites/src/*` | Suite | suites, tools, saving, search | the YAML codec (a parameter) |
| `rez-next-config/src/lib.rs`, `rez-next-common/src/config.rs` | Config | trees, merging, variables, search order | the three text formats |
| `rez-next-repository/src/simple_repository.rs`, `package_search.rs`, `rez-next-search/src/*` | Repository, Search | queries, scans, filters, reverse dependencies, plugins | the package file parsers (a parameter) |
| `rez-next-solver/src/{requirement_list,dependency_conflicts}.rs`, `rez-next-release-hook/src/registry.rs` | Lists | all operations | the hooks themselves |
| `rez-next-package/src/package_{copy,move,remove}.rs` | PackageFiles | all operations as steps on a tree of paths | permissions, times, links that lead outside, errors of the disk |
| `src/cli/commands/{cp,mv,rm}.rs`, `src/cli/utils.rs` (times), `package_py_utils.rs` | Commands | what is chosen, moved and removed; time texts; wildcard expansion | printing, prompts (a parameter) |
| `rez-next-repository/src/package_repository/{filesystem,mod}.rs` | FsRepository | component checks, ignore, unignore, remove, remove family, remove ignored, listing, lookups, payload paths | variants, installing (not implemented there), errors of the disk |
| `rez-next-repository/src/{filesystem,repository}.rs` | DirRepository | initialize, refresh, scan, find, get, versions, variants, exists, names, statistics, deduplicate_packages | times; loading of package files; errors while listing (a directory that stops listing has fewer entries) |
| `rez-next-package/src/serialization/{load,save,types}.rs`, `package/serialize.rs`, `package/methods.rs` (`to_package_py`) | Serialization | all formats, filters, options, XML, Python text, serde of packages | indented YAML, metadata contents, file errors, fractions |
| `rez-next-package/src/python_ast_parser/*.rs` | PackagePy | statements, expressions, `format`, conditions, command functions, fields, panics and overflow | the parser of RustPython (a parameter), arithmetic of fractions, error texts |
| `rez-next-build/src/environment.rs` | BuildEnv | directories, variables, variants, sources | the shell scripts, real directories |
| `rez-next-build/src/process.rs` | BuildRun | the steps, events, output, errors, results, package tests | times; the programs that run (parameters) |
| `rez-next-build/src/{builder,process}.rs` | BuildManager | start, wait, cancel, limit, statistics, tasks | average times, cleaning, the child process (never set) |
| `rez-next-build/src/systems/custom.rs` (copying) | `Model/BuildCopy.lean` | `copy_package_files`, `copy_dir_recursive`, `should_skip_file`, `copy_files_install` | links, permissions, changes of the directory while it is listed |
| `rez-next-build/src/systems/*.rs` | BuildSystems | choice, configure, compile, test, package, install of all systems but the binary archive; command lines; placeholders | variables given to programs (C141), durations, live output |
| `rez-next-build/src/sources.rs`, `src/cli/commands/build.rs` | BuildCommand | sources, downloads, git calls, requirements of a build, loop over variants | the network, printing, unpacking of downloaded sources |
| `rez-next-build/src/systems/binary_archive.rs` | BuildArchive | variables, archive, digest, unpacking, payload, copying | permissions, links in archives, HTTP status |
| `src/cli/commands/release.rs` | ReleaseCommand | the choice of variants, checks, builds, tagging, pushing, undoing | printed texts |
| `rez-next-build/src/release.rs` | ReleaseManager | all of `release` on any machine | warnings and texts of errors, text of JSON, how test commands are found |
| `rez-next-build/src/vcs/*.rs` | Vcs | detection, tags, branches, metadata, timestamps | `git2` beyond tags and the current commit, change logs, exports (a repository from `detect_vcs` does not pass `export` and `get_current_revision` on to the one inside) |
| `src/cli/commands/depends.rs` | Depends | the search, the tree, its lines and its graph | options without effect, reading repositories in parallel, texts on progress |
| `src/cli/commands/env.rs` | EnvCommand | all but Windows: refusal, printing, variables, scripts, quoting, starting, removal | the solver (a parameter, see C40 on), the text of the context file (see C60), JSON, finding the shell of the user (`$SHELL`) |
| `src/cli/commands/test.rs` | TestCommand | all but printed texts: loading, selection, environment, running, summary | the solver and the generation of the environment (parameters; see C23 on, C114), regular expressions outside the patterns |
| `rez-next-package/src/package/test_runner.rs` | TestCommand | selection and commands | results kept by callers; running is as in the command |
| `src/cli/commands/bundle.rs` | Bundle | all but printed texts | resolution, JSON texts and the time (parameters); removal of old files is not done by the code |
| `src/cli/commands/diff.rs` | Diff | all but titles and `--verbose` | `{:?}` and the order of hash sets (parameters) |
| `src/cli/commands/status.rs` | Diff | the versions of a package, the totals, the number of packages of a directory | details, sizes, the table of families, configuration |
| `crates/rez-next-bind/src` | Bind | `bind`, `detect_version`, `extract_version_from_output`, `generate_package_py`, the built-in binders, the list | how programs are found and run (parameters) |
| `src/cli/commands/bind` | Bind | `execute`, the quick start, detection on Linux, the generator | what is printed, other systems |
| `src/cli/commands/pip.rs` | Pip | all of it | pip and the temporary directory (parameters), what is printed; lower case is ASCII |
| `rez-next-repository/src/scanner/*.rs`, `scanner_types.rs`, `high_performance_scanner.rs` | Scanner | patterns, the walk, files, cache, prefix lookup, refresh, clear; the other scanner | the parser of packages (a parameter), links, concurrency within a directory (an arbitrary order), times and byte counters, preloading, SIMD search of bytes |
| `src/cli/commands/search_v2/*.rs` | SearchCommand | matching, dates, types, families, order, latest, limit, printing | choosing the repositories, regular expressions and dates (parameters), column padding, the date line |
| `crates/rez-next-solver/src/{solver,resolution}.rs`, `src/cli/commands/solve.rs`, `crates/rez-next-python/src/{context,env,solver}_bindings.rs` | SolveApi | requests, contexts, environments, families, results, the command | statistics and times, reading and writing context files, other expressions than `*` and `.`, execution |
| `rez-next-python/src/package_functions/{mod,query,utility,management}.rs`, `package_uri_functions.rs` | `Model/PackageQuery.lean` | asking for packages by name, text, URI and handle; families; completions; the version to copy | dictionaries and schemas, `datetime`, variants by URI (always an error), what copying does (see `Model/PackageFiles.lean`); paths are texts |
| `rez-next-version/src/parser.rs` | `Model/Tokenizer.lean` | the tokenizer, its limits, the interning of texts by many threads | the text of errors; letters are those of `char::is_alphanumeric` as in `Base/Text.lean` |
| `rez-next-serialise/src/package_serialise.rs`, `rez-next-python/src/serialise_bindings.rs` | `Model/Attributes.lean` | package data as Python code, blocks, dumping | reading; the JSON and YAML libraries and the text of floats are parameters; the second, file-writing `dump_package_data` of the crate |
| `rez-next-solver/src/astar/heuristics.rs`, the costs and the queue of `astar_search.rs` | `Model/AStarQueue.lean` | costs, the order of the heap, heuristics, weights | `f64` (numbers are exact); the statistics and the benchmark |
| `src/cli/commands/self_update.rs` | `Model/SelfUpdate.lean` | version, list of checksums, steps up to the rename | Windows, what is printed, finding out the platform, the downloader |
| `rez-next-cache/src/predictive_preheater.rs` | `Model/Preheater.lean` | patterns, predictions, queue, recommendations, statistics, locks | `f64` (numbers are exact), the square root and the score (parameters) |
| `rez-next-cache/src/adaptive_tuner.rs` | `Model/Tuner.lean` | history, analyses, parameters, counters, locks | `f64`, the average improvement, texts of recommendations |
| `src/cli/commands/complete.rs` | `Model/Complete.lean` | dispatch, dynamic completion, names, versions | scripts for shells (fixed texts), the repository (parameter) |
| `src/cli/commands/forward.rs` | `Model/Complete.lean` | program, arguments, exit code | Windows |
| `rez-next-build/src/artifacts.rs` | `Model/Artifacts.lean` | scan, types, summary, validation | directories that contain themselves by links, sums over 64 bits, Windows |
| `rez-next-util/src/{which,command,filesystem}.rs` | `Model/Which.lean` | `which`, `which_all`, results of commands, `is_writable` | Windows, running (parameter), the other functions on files |
| `rez-next-python/src/diff_bindings.rs` | `Model/ContextDiff.lean` | reading, comparing, counts, text | reading files (parameter), dictionaries for Python |
| `rez-next-python/src/depends_bindings.rs` | `Model/DependsApi.lean` | direct and transitive dependents, flat list, total, text | dictionaries and `__repr__` |
| `rez-next-python/src/pip_bindings.rs` | `Model/PipApi.lean` | conversion, `pip_install`, dependents, package.py text, writing | dictionaries for Python; the disk is a map |
| `src/cli/commands/pkg_cache/{mod,ops,display}.rs` | `Model/PkgCache.lean` | daemon, add, remove, clean, logs, table, cache directory | the statistics and messages; links count as files; the cache in memory is new with every call |
| `src/cli/commands/view.rs` | `Model/View.lean` | all of it | messages of errors |
| `src/cli/commands/context.rs` | `Model/ContextCommand.lean` | all of it | messages on the standard error, opening the image, `--style` |
| `src/cli/commands/suites.rs`, `suite.rs` `format_info` | `Model/SuitesCommand.lean` | all of it | errors of the file system, Windows paths, messages of success |
| `rez-next-repository/src/resources/*.rs`, the rest of `package_repository/filesystem.rs` | `Model/Resources.lean` | handles, resources, variants and parents | serde, metadata of variants, `install_variant` (always an error) |
| `rez-next-python/src/version_bindings.rs` | `Model/PyVersion.lean` | `__new__`, `__repr__`, `__hash__`, `major`/`minor`/`patch`, `trim`, `next`, `union`, `__eq__`; the rest calls the modelled functions | pyo3 conversion of arguments and exceptions |
| `rez-next-package/src/package/help.rs`, `rez-next-python/src/package_help_bindings.rs`, `src/cli/commands/help.rs` | `Model/Help.lean` | search, `success`, `format_uris`, sections, `--entries`, `--manual` | the constant texts of the manual and of the commands; opening a browser |
| `rez-next-python/src/source_bindings.rs`, `shell_utils.rs`, `status_bindings.rs` | `Model/Source.lean` | the variables, the script, writing it, the modes, the shell found, the status and what is printed of it | what canonical paths are; Windows; upper and lower case outside ASCII |
| `rez-next-solver/src/{package_variant,reduction,variant_select_mode,solver_status}.rs` | `Model/VariantCache.lean` | all calls | rounding of the hit rate; the time stamp of a reduction |
| `rez-next-cache/src/performance_monitor.rs` | `Model/Monitor.lean` | recording, counters, metrics, events, histogram, benchmarks, memory usage by several threads | rounding of quotients and of the percentile ranks (parameters); clocks; overflow of counters |
| `rez-next-cache/src/{cache_stats,unified_cache}.rs` | `Model/LevelStats.lean` | level and overall statistics, entries, expiry, retention score, ranks | rounding of `f64`; the logarithm (a parameter that does not fall); time stamps; `summary_report` |
| `rez-next-python/src/plugins_bindings.rs`, `rez-next-release-hook/src/{builtin,event,hook}.rs`, `rez-next-python/src/release_hook_bindings.rs` | `Model/Plugins.lean` | plugin manager, built-in hooks, their configurations and log lines, events | `to_lowercase`, files, JSON and TOML (parameters); texts of errors; `__repr__`, `__str__`; hook arguments, which no built-in hook reads |
| `rez-next-python/src/{release_bindings,forward_bindings}.rs` | `Model/PyRelease.lean` | `release_package`, modes, `validate`, `list_versions`; forwarding, wrappers, `resolve_forward_tool` | classes for version control (they pass values on); texts of issues; the absolute source path; how programs end (a parameter) |
| `rez-next-python/src/build_functions.rs`, `rez-next-build/src/lib.rs` | `Model/PyBuild.lean` | `build_package`, `get_build_system`, `create_build_system`, listed types | the absolute source path; texts of errors but those of a failed build; starting and waiting (parameters) |
| `rez-next-python/src/package_bindings.rs` | `Model/PyPackage.lean` | `from_dict`, `to_dict`, `to_package_py`, equality, hashes, `conflict_requirement` | getters and setters, which pass values on; loading and saving (see package files); which exception an error is |
| `src/cli/commands/plugins.rs` | `Model/PluginsCommand.lean` | the whole command: directories, package, plugins, both reports | parsing of arguments; two spellings of one path; texts of errors; what is written before an error |
| `rez-next-python/src/bundle_functions.rs` | `Model/PyBundle.lean` | `bundle_context`, `unbundle_context`, `list_bundles` | files that are not UTF-8; two spellings of one path; classes of errors |
| `rez-next-python/src/repository_bindings.rs` | `Model/PyRepository.lean` | the whole manager, and `list_packages` of the manager below | texts of errors |
| `rez-next-python/src/package_filter_bindings.rs` | `Model/PyFilter.lean` | the whole filter class, reading packages from dictionaries | the hash, texts of errors |
| `src/cli/commands/gui.rs` | `Model/GuiReport.lean` | collecting packages, descriptions, escaping, the page | the literal head of the page, the browser, messages |
| `src/bin/rez-next.rs` | `Model/MainArgs.lean` | all of `main` and `handle_grouped_command` | what is printed; the parser (clap), whose exit code for usage errors, 2, is taken from its documentation |
| `rez-next-package/src/developer_package.rs` | `Model/DevPackage.lean` | `new`, `from_path` and all it calls | the texts of errors; `PreprocessMode`, which nothing uses; files that change between the check and the reading |
| `rez-next-python/src/completion_bindings.rs` | `Model/PyComplete.lean` | all functions | the texts of the scripts; letters outside ASCII in `to_lowercase`; Windows |
| `rez-next-python/src/suite_bindings.rs` | `Model/PySuite.lean` | all methods of `Suite` and `SuiteManager.load_suite` | `__repr__` and `print_info`; errors of the file system; `find_suites` and `list_suite_names`, which pass through to C108 |
| `rez-next-python/src/package_cache_bindings.rs` | `Model/PyCache.lean` | codes, constants, descriptions, `get_cached_root`, `add_variant`, `remove_variant`, `list_cached` | `CacheConfig`, which no cache made in Python is given; `clean` and the space checks, which pass through to C50; names and versions with separators of paths; errors of the file system while copying |

Not modelled:

* `rez-next-build/*`, `rez-next-bind/*` and `rez-next-python/*` except where a row above says so
* the tokio scheduler: an `async` operation is the list of its atomic steps between awaits

## Assumptions in theorems about the resolver and the search

* `EnvOk`: repositories list packages under their own name, and the sort used is a permutation. Both hold of the
  code (`find_packages(name)` filters by name; `sort_by` permutes).
* `SortOk`, `SetOk`: sorting by a consistent comparison sorts; a hash set behaves as a set of its keys up to the
  key's own equality and hash. Where the key's hash and equality disagree (C03) a theorem says so.
* `Layered`, `SpellingsAgree` (C25): restrictions on the repository, named in the theorem.
* `Faithful` (C83): the identity hash tells the reachable states apart.
* Fuel: loops that the code runs without bound take a number of steps. `some r` means that the loop has ended; more
  fuel gives the same result (`C37_fuel_irrelevant` and the like), and termination is a theorem of its own.

## Where the code disagrees with the claims

Each line is a theorem `..._false` (or `..._not_transitive`, `..._cycle`) with a concrete witness. The notes in
`MANIFEST.json` say what is proved instead.

* C02 version order is not transitive; C03 equal versions hash differently; C07 digit runs above 2^64.
* C11–C17 range operations rely on the missing transitivity; C16 a range loses its bounds through serde; C18 wraps at 2^64-1.
* C20–C22, C75, C77 requirement texts: printing does not always read back, architecture conditions are dropped, one parser can abort on non-ASCII text. C74 shorter candidates, C76 contradictory platforms.
* C25 the resolver may run forever; C26 conflicts brought in by packages are not enforced against later choices; C31 it may fail although a solution exists; C82 weak requirements may be reported as failed though they hold.
* C32, C33, C35, C79, C80 the graph: a package added again under its key, failed edges, undecided versions, shared visited sets, conflicts on intransitive versions.
* C36 the A* search ignores the second requirement on a family, dependencies on chosen families, conflicts, texts that are no range, and may answer with leftovers; C38 a repeated search fails; C83 packages without version are never found.
* C39–C41, C86, C87 solver cache: clocks before 1970, TTL eviction and capacity 0 exceed the limit, put against get, remove and put can deadlock, cleanup never returns, overflowing times to live.
* C42–C44, C88 two-level cache: an overwritten value comes back, limit 0, concurrent puts and removals.
* C45, C89–C91 repository cache: changes within a second, older times, deleted sources, restarts; no limit is kept.
* C46, C92, C93 file cache: colliding hashes, crashes inside put, sub-second changes, statistics.
* C47–C50, C95–C97 payload cache: crashes in removals, the 28th variant of a directory, two adders, wrap-around in space checks, a crashed copy blocks its variant for ever, a variant added while a reader writes its metadata anew is held twice and survives its removal (C96).
* C52 the 37th link of a directory; C53 a split orderer panics on two unversioned packages; C54 versions in a cycle; C55 per-family orderers are not read back.
* C56, C57, C99, C100 filters: rules built directly, families and timestamps lost, rules that ignore their family, texts with line feeds.
* C59–C61, C101–C106 rex and environment: characters that the escaping misses, resetenv, PATH in another case, variables after stop, quotes, nested braces, unset variables, reused executors, hash order.
* C63, C64, C107, C108 suites: renamed contexts, prefixed clashes, crashes while saving, marker-only directories.
* C65, C66, C109, C110 configuration: associativity, plain values on the way, keys with an underscore, REZ_CONFIG_FILE with a slash.
* C67–C69, C111–C113 repositories: latest across repositories, unreadable packages on the first call, the search that always finds nothing, stale families, reverse dependencies by text containment.
* C70–C73, C114–C117 lists, utilities and contexts: len, truncate panics, unknown hooks, flags ignored, forced inheritance, line breaks in env files, other endings, unset variables.
* C94 handles with attributes.
* C119–C121 a forced copy or move onto itself destroys the package, a crash in a forced copy leaves neither, names such as `.` and `..` remove more than asked.
* C122–C125 commands: the lowest version is taken for the latest, versions in two search paths, configured paths ignored, panics on multi-byte units and `**`, single wildcards never expanded.
* C126–C130 filesystem package repository: directories in the place of markers, stale markers after a crash, dry runs that count too much, lookups outside the repository and in listing order.
* C131–C133 scanned repositories: two files for one version, package files above versions, versions called latest, other spellings, failed refreshes, variants under names with dashes; limit zero, points in patterns, ranges; duplicates of names with dashes.
* C134–C136 package files: files with metadata never load, commands are lost, binary text never loads, XML is cut, misread or panics; quotes, backslashes, flags and tests in written Python; unknown fields in filters, filters in binary files.
* C137 package.py: chained comparisons, `or`, assignments evaluated twice, several targets, tuples, `{}` and braces in `format`, `True` as text, `**`, format versions beyond 32 bits, `commands = None`, negative repetition (panic), overflow, list plus tuple, missing imports, other functions, conditions that are not truth values.
* C138 commands of package.py: quotes, subscripts, late assignments, `True`, parts of versions, undefined names.
* C139: private build requirements and commands are not saved as Python.
* C140, C141 installed variants share a directory, variants are built inside the installed package, `~` is not expanded, variables of the variant, hidden directories.
* C142 errors without end events, failed tests leave the package installed. C144–C146 a cancelled build goes on, installs and exceeds the limit; a reset makes waiting panic; a dropped wait loses the build; a panic makes waiting endless; a cancelled success counts as failed.
* C147: with the standard configuration, `rez build` in the directory of a package without build files installs in `.rez_build/<name>/install` of that directory; `.rez_build` is not left out, so the copying goes on until a path is too long (`C147_inside_false`, `C147_default_false`)
* C147: names are left out only at the top of the source, so `bin/old.pyc` is installed (`C147_nested_false`)
* C147: files of an earlier version stay installed (`C147_stale_false`)
* C147: a package that is built where it is installed has its files emptied (`C147_itself_false`)
* C148 a build system called `custom`, `default` or `copy-only`. C149 steps that cannot fail: Python tests, npm build and test, cargo package; scripts run twice. C150 directories with blanks under cmake and for scripts. C151 values with braces, `{variant_index}`.
* C152 sources: `git@host:path@ref`, users and tokens in URLs, archives at the known places. C153 the server chooses the file that a download overwrites. C154 variants out of range count as built; `--clean`, `--force`, `--scripts`, `--build-system`, `--child-build-args` do nothing.
* C155 binary archives: files of an earlier archive are installed, a prefix such as `/etc` or `../..` installs files of the machine, a crash between removal and copy leaves nothing, URLs with a query and digests in upper case are refused.
* C157 failing releases leave built variants, unpushed commits, unreadable status, `--ignore-existing-tag`, crashes before pushing, dry runs, unused options, missing versions. C158 changes and failing tests do not stop a release, dry runs always succeed, the revision recorded after tagging. C159 released versions are written over, payload, short digests, releasing in place, the standard directory, `~user`. C160 Mercurial tags that are part of others, Subversion tags of the trunk, branches containing the words. C161 printed dates, several lines, missing authors, the message of Subversion.
* C162 missing edges, requirements with versions, the empty family. C163 fish and backslashes. C164 unset variables, ZDOTDIR. C165 unfinished context files, killed shells. C166 quotes and dollars.
* C167 parts of names, dots. C168 nothing run, names that do not exist. C169 other packages, latest versions, requests with versions. C170 quotes.
* C171 names of different requests. C172 requests that cannot be resolved, packages without a version, errors of copying, older bundles. C173 the search path, bundles that are moved, relative roots, hyphens. C174 versions in YAML.
* C175 the version before a version, versions with hyphens. C176 orders, JSON. C177 the overview, the packages of a repository.
* C179 names of built-in tools, missing tools, crashes, paths. C180 quotes. C181 gcc, the version asked for, missing tools. C182 overwriting, dependencies, the quick start. C183 the order of versions (as texts).
* C184 extras, markers. C185 requirements of METADATA. C186 shared directory, dependencies, nothing found, existing packages. C187 backslashes.
* C188 dots, `.git` itself, repositories below such a directory. C190 same time and length. C191 root, changed files, errors. C192 directories.
* C193 regular expressions, names against fields. C194 unreadable dates. C195, C196 newest. C197 latest-only, date. C198 versions, unknown formats.
* C199 requests with operators, namespaces. C200 missing packages. C201 excluded packages, prefer_latest. C202 families, dots, case. C203 without --strict. C204 PATH, root, unknown shells. C205 latest.
* C206: ranges that cannot be read are ignored, packages without version are within every range, and `get_package` compares version texts.
* C207: `walk_packages` orders versions as texts; a broken package makes a family that is listed fail when it is asked for.
* C208: a name with a hyphen is split; the request `python-3.9` finds only the version 3.9 itself.
* C209: without a version, a tilde in the given paths is not expanded and an empty list of paths is no default, although both are for the copy itself.
* C210: the URI of a version directory and the combined form `package.py<1.0>` give the latest version; absolute URIs are looked up below the working directory; `get_package_from_repository` ignores its URI.
* C211: the tokenizer accepts a leading `v`, refuses blanks and does not count numbers beyond 64 bits, unlike `Version.parse`.
* C212: `dict_to_attributes_code` puts commas behind assignments, so all values but the last are tuples; nested objects become chained assignments; backslashes are not escaped; large numbers are rounded.
* C213: `dump_package_data` accepts data that is no object.
* C214: `as_block_string` adds or drops the final line break and does not escape quotes.
* C215: estimates are compared by their bits, so negative ones come last.
* C216: with each choice of weights that the program offers the search can return dearer packages than others that fulfil the request.
* C217: what self-update installs can be a file that lay in its temporary directory before; an older version is called an update.
* C218: an access and `get_stats` of the preheater can deadlock; recommendations beyond the limit are lost; the cache manager never tells it of accesses.
* C219: concurrent calls can set a tuned parameter back; the cache manager records nothing, so nothing is ever tuned.
* C220: a subcommand that is being typed is never completed, nor are subcommands offered after the name of the program; after a blank the word before it is completed again.
* C221: files found before stay listed when the directory is gone; changed files are valid; scripts with extension and versioned libraries are data.
* C222: without PATH not even an absolute path is found; `which_all` repeats an absolute path; time limits are not kept; `is_writable` empties or removes a file of the user called `.write_test_tmp`.
* C223: versions that are equal but written differently are a downgrade both ways; packages without an exact version are not seen; `!python-3` counts as the package.
* C224: `transitive` goes one step; a conflict counts as a dependency; requirements of variants are not seen; one requirement such as ` é` makes every query panic.
* C225: `>1.0` lets 1.0 in; `numpy<2.0` becomes a requirement of the package `numpy-`; `typing_extensions==4.0` one of `typing`; with extras the version is lost; a quote or a line break in the description is a statement of package.py; a package with an underscore has no dependents.
* C226: all that `pkg-cache` ever makes is empty directories, never a payload; `--remove-variants` removes nothing; a request with an underscore in its name is for another package; `.._x.pending` and `_etc_x.pending` make directories outside of the cache; cleaning removes the queue; a long name that is not ASCII makes the table panic.
* C227: without a version `rez view` shows the lowest version, though the comment says the latest; neither format escapes anything, so a description can pretend to be other fields; `--all` leaves out build requirements, help, timestamp and changelog; the Python format never shows the commands.
* C228: `--diff`, `--fetch`, `--no-env` and `--dependency-graph` change nothing; a variable of the calling process is printed as if a package had set it when its name is the beginning of an exported name; commands in Python contribute nothing; `export` and two blanks is not printed; values are not escaped; `name-version` requirements have no arrow; `a-b` and `a_b` are one node; pruning keeps packages whose requirements only begin alike; `--which` succeeds for a program that is not there; `--show-uris` shows the root; a file of the older kind is shown as created now; a variable that names a file that is gone is passed over silently; of two packages of a name the summary shows the first twice.
* C229: creating a suite where there is one discards its contexts without a word; `--priority` is not used; `--prefix` is stored but changes no tool; of two commands at the same time one is lost though both succeed; a command that is interrupted can leave the suite unreadable; `info` takes only a path, so a suite that `list` names is not found by that name; `list` shows a directory that only has the marker, and with `--verbose` leaves it out, so that nothing is printed.
* C230: a package without a version has the handle of its family, and a directory whose name is no version is such a package; a repository lists one variant of a package that has two, without requirements; the text of a handle leaves out the version, and `a-b` 1 and `a` b-1 have one text; requirements that cannot be read are left out of a variant without a word; a directory named `epsilon` is listed under the empty version.
* C231: `major` of `1-2` is `1-2`; `inf.1` trimmed to one piece is the infinite version; the next version of `1.beta` is earlier than `1.beta`, that of `1.18446744073709551615` is `1.0` in a release build, and that of the empty version an error; a union with the empty range, of `1..2` and `3..4`, or with an intersection raises an error; the union of `5` and `1..2` holds 7, while that of `1..2` and `5` does not; `>=1` and `1+` hold the same versions and are not equal.
* C232: `rez pkg-help` never shows the `help` of a package; without paths it looks only in `./local_packages`; section 0 is section 1 under the number 0; `$VERSION` inside the directory of a package is filled in too; `$BASEMENT` is `$BASE` followed by MENT.
* C233: a name with a dash gives the variable of its first part; a request with a line break runs as a command; two scripts of one process share a temporary file; `PowerShell` gets a file `.sh`; the script for `cmd` begins with lines that are no comments there; after the script a context is active with no packages; one value that is not Unicode makes the status panic; `rez_version` asks for `REZ_REZ_VERSION`.
* C234: the count of reductions read from a file need not be their number; `clear` forgets hits and misses.
* C235: overlapping reports of memory lose the peak; the 95th percentile skips the bucket of operations that took no time; a benchmark that resets the monitor panics; after a reset the time still counts from the beginning.
* C236: without a lookup an old rate stays; with more memory in use than the limit the efficiency can be below 0; the retention score falls when an entry is used later; accesses do not keep an entry from expiring.
* C237: a registered shell counts as supported; managers share what was registered.
* C238: the release hooks that the plugin manager lists (`emailer`, `command`) cannot be made; a broken e-mail configuration is not reported. No code calls the hooks during a release.
* C239: a package that is not valid is not released (`package.yaml` is enough); a misspelt mode is reported; listed versions are in the order of versions.
* C240: a tool that a package has is found (none ever is, if all packages have names); the context of a forward object matters; names are escaped in wrappers.
* C241: packages with variants can be built from Python (none can: there is no way to say which variant); the name given for a directory is the system that builds it (not with a build script next to `CMakeLists.txt`, and `build.py` is not known); that name can be used to make a system (`python_rezbuild` and `custom_script` cannot).
* C242: the dictionary of a package gives it back (tests, version control, help and more are lost; `help` cannot be given; a `None` is refused); packages that look the same are equal; equal versions make equal packages; a weak requirement stays weak in what is shown of its conflict; `package.py` texts are escaped; private requirements are written.
* C243: a build system is named only if the package has or wants it (`cmake` gives `make_build`, a tool `pipeline` gives `pip_build`, `!cargo` gives `cargo_build`); a directory that is not there is skipped (the command fails).
* C244: all requests come back (a line break in one ends the list, and all after it are lost); only the list of packages is read (a second list with the same title counts too).
* C245: the latest package is the first of all packages, newest first (a later directory may have a higher version).
* C246: what is not included is excluded (a dictionary without a name is neither).
* C247: versions are in their own order on the page (they are compared as texts: 10.0 before 9.0).
* C247: every package is shown once (twice if the local path is also one of the settings).
* C247: the whole description is shown (it is cut at the second equals sign of the line).
* C248: all arguments after the double dash reach the program (those after a second one are dropped).
* C248: arguments with blanks reach a build as they are (they are joined by blanks).
* C248: wrong arguments give the same exit code for every command (1 for env and build, 2 for others).
* C249: package.yaml is used if package.py is broken (it is an error).
* C249: every format that can be loaded by its path is found (package.json is not).
* C249: included modules are collected (the set is always empty).
* C250: each name with a script has a path ("ps1" has none).
* C250: without a shell the script is for the shell in use (with tcsh it is that of bash).
* C251: tools that are hidden or aliased must exist (they need not).
* C252: a variant that was created is listed (not if its name begins with a dot).
* C252: a variant that is listed as found is found (it may still be being copied).
* C252: only codes are described (every other number is described as not found).

## Axioms by theorem

Beyond the theorems named here, every theorem of the project depends on a subset of the same three axioms.

* no axioms: `C09_special`, `C39_clock_false`, `C40_ttl_false`, `C40_zero_false`, `C40_concurrent_false`, `C43_zero_false`, `C43_concurrent_false`, `C44_concurrent_false`, `C50_space_false`, `C50_requirements_false`, `C59_context_false`, `C61_case_false`, `C63_edit_false`, `C71_truncate_fits_false`, `C86_entries_false`, `C86_evictions_false`, `C87_overflow_false`, `C93_disk_false`, `C94_attribute_false`, `C103_prefix_false`, `C106_context_false`, `C107_mode`, `C115_inject_false`, `C117_unset_false`, `C117_order_false`, `C121_name_false`, `C121_dots_false`, `C121_force_false`, `C122_spec_false`, `C135_lost_false`, `C139_fields_false`, `C142_events_false`, `C142_undone_false`, `C150_cmake_false`, `C151_again_false`, `C151_variant_false`, `C154_options_false`, `C157_status_false`, `C160_hg_false`, `C160_trunk_false`, `C160_branches_false`, `C161_message_false`, `C163_fish_false`, `C170_words_false`, `C171_name_false`, `C176_fields_false`, `C181_gcc_false`, `C184_extras_false`, `C186_place`, `C202_dot_false`, `C202_case_false`, `C210_repository_false`, `C217_compact_false`, `C220_blank_false`, `C222_all_false`, `C222_timeout_false`, `C225_quote_false`, `C226_queue_false`, `C227_escape_false`, `C227_all_false`, `C228_nodes_false`, `C228_node_false`, `C229_priority_false`, `C229_name_false`, `C229_marker_false`, `C230_given`, `C232_base_false`, `C232_word_false`, `C233_dash_false`, `C233_ending_false`, `C233_small_false`, `C234_file_false`, `C234_clear_false`, `C236_tiers`, `C237_registered_false`, `C238_events`, `C239_invalid_false`, `C239_misspelt_false`, `C240_context_false`, `C241_detected_false`, `C241_created_false`, `C244_breaks_false`, `C244_titles_false`, `C250_ps1_false`, `C250_other_false`, `C252_distinct`

* `Classical.choice,Quot.sound,propext`: `C01_compare_swap`, `C01_compare_refl`, `C01_lt_gt_exclusive`, `C02_transitive_same_length_partial`, `C02_transitive_no_trailing_zero_partial`, `C03_hash_partial`, `C04_round_trip`, `C04_prints_input`, `C04_spelling`, `C05_grammar`, `C05_accepts_iff`, `C06_inf_greatest`, `C06_empty_least`, `C07_numeric_partial`, `C08_prefix_refl`, `C08_prefix_trans`, `C10_range_meaning`, `C10_dots`, `C10_plus`, `C10_plus_upper`, `C11_intersect_contained_partial`, `C11_intersect_complete_partial`, `C11_contradictory_none_partial`, `C12_union_partial`, `C12_union_superset_partial`, `C13_subtract_some`, `C13_subtract_none_partial`, `C14_subset_yes_partial`, `C15_no_miss_partial`, `C15_symmetric_single_partial`, `C15_contradictory_partial`, `C16_serialise_partial`, `C17_is_empty`, `C17_is_any_partial`, `C18_compatible_two_partial`, `C18_compatible_more_partial`, `C20_round_trip_partial`, `C21_operator`, `C21_list`, `C21_prefix_partial`, `C21_prefix_meaning_partial`, `C21_plus_partial`, `C21_plus_upper_partial`, `C21_bare_partial`, `C22_agree_partial`, `C23_strict_satisfies`, `C24_one_per_family`, `C25_layered_partial`, `C26_request_conflicts_partial`, `C27_listed`, `C28_needed`, `C29_sorted_partial`, `C30_cycle_exact`, `C30_result_acyclic`, `C30_cycle_reported`, `C32_topological_partial`, `C33_mirrored_partial`, `C34_accessibility`, `C34_find_cycle`, `C35_settled_partial`, `C35_latest_partial`, `C35_earliest_partial`, `C36_agreeing_partial`, `C38_nothing_again_partial`, `C40_capacity_partial`, `C41_put_get_false`, `C41_put_remove_false`, `C41_put_put_false`, `C41_cleanup_false`, `C41_cleanup_never_false`, `C41_repository_false`, `C41_repository_puts_false`, `C41_lookups_partial`, `C41_inserts_partial`, `C41_repository_partial`, `C42_exact_partial`, `C43_capacity_partial`, `C45_hit_partial`, `C46_just_put`, `C46_persists`, `C46_put_package`, `C47_found_complete_partial`, `C47_added_partial`, `C48_add_partial`, `C50_space_partial`, `C50_clean_partial`, `C51_successor`, `C51_sequence`, `C51_no_repeat`, `C51_all_names`, `C52_created_partial`, `C52_first_36_partial`, `C53_permutation`, `C53_no_panic_partial`, `C54_sorted_partial`, `C54_sorted_false`, `C54_split_ascending_partial`, `C54_per_family`, `C55_round_trip_partial`, `C55_list_partial`, `C56_text_exact`, `C57_round_trip_partial`, `C57_timestamp_false`, `C57_inclusive_false`, `C57_text_partial`, `C58_paths`, `C59_bash_partial`, `C59_fish_partial`, `C59_powershell_partial`, `C59_context_bash_partial`, `C59_context_fish_partial`, `C60_phases_partial`, `C60_path_partial`, `C60_unset`, `C61_partial`, `C61_unique`, `C62_exact`, `C62_minimal`, `C62_count`, `C63_lookup`, `C65_merge`, `C65_layers`, `C65_idempotent`, `C67_find`, `C67_first`, `C67_latest_partial`, `C67_latest_false`, `C67_version`, `C68_same_partial`, `C69_name`, `C69_report_partial`, `C70_entries`, `C70_names`, `C70_len_partial`, `C70_len_false`, `C71_duration`, `C71_age`, `C72_create`, `C72_order_partial`, `C72_skip`, `C72_unknown_false`, `C73_flags_false`, `C74_depth_partial`, `C74_compatible_partial`, `C75_arch_ignored`, `C76_platform_partial`, `C78_wildcard`, `C79_depth_partial`, `C80_reported_real_partial`, `C82_unmet_reported`, `C82_reported_unmet_partial`, `C83_versionless_false`, `C83_complete_partial`, `C84_best_variant`, `C84_none_admitted`, `C85_lru`, `C85_lfu`, `C85_fifo`, `C89_limit_false`, `C92_current_partial`, `C93_memory_partial`, `C94_text_partial`, `C95_crashed_copy_false`, `C96_twice_false`, `C99_package_time`, `C99_texts`, `C100_glob_partial`, `C100_sound_partial`, `C101_shell_partial`, `C102_lines`, `C102_error`, `C103_expand_partial`, `C106_rex`, `C109_key`, `C110_config_file_false`, `C110_split`, `C111_scan`, `C111_unknown`, `C112_layers`, `C112_ends`, `C112_graph`, `C112_dependents`, `C112_complete_partial`, `C113_plugins`, `C113_exact_partial`, `C115_env_partial`, `C116_load_partial`, `C116_find`, `C117_expand_partial`, `C117_export_partial`, `C118_tools`, `C119_copy_partial`, `C120_crash_partial`, `C120_moved_partial`, `C121_pruned`, `C122_spec_partial`, `C122_exact`, `C122_move_partial`, `C123_gone_partial`, `C123_ignored_partial`, `C123_configured_false`, `C124_relative`, `C124_future_false`, `C125_unexpanded_false`, `C125_name_false`, `C126_hides_partial`, `C126_back_partial`, `C126_history_partial`, `C126_early_partial`, `C127_crash_partial`, `C127_done_partial`, `C127_again_partial`, `C128_only`, `C128_done_partial`, `C128_dry`, `C129_inside`, `C130_found_partial`, `C130_payload`, `C131_latest_partial`, `C131_versions_partial`, `C132_find_partial`, `C133_partial`, `C134_xml_partial`, `C134_names`, `C135_one_reading_partial`, `C135_python_partial`, `C135_package_py_partial`, `C136_exclude_partial`, `C136_include_partial`, `C137_reads_partial`, `C137_accepts_partial`, `C138_commands_partial`, `C139_save_partial`, `C139_export_partial`, `C141_options_partial`, `C142_calls`, `C143_tests`, `C143_order`, `C145_numbers_partial`, `C147_installed`, `C147_succeeds`, `C147_count`, `C147_ends_partial`, `C148_choice`, `C149_build_partial`, `C149_stops_partial`, `C151_expand_partial`, `C152_hosted_partial`, `C152_user_false`, `C152_ssh_partial`, `C152_ssh_false`, `C152_scheme_partial`, `C153_download_partial`, `C153_download_false`, `C154_requirements`, `C154_success_partial`, `C154_failure_partial`, `C154_range`, `C155_checked`, `C155_refused`, `C155_installed`, `C155_fresh_partial`, `C155_crash`, `C155_query_false`, `C156_variants`, `C156_once`, `C157_success`, `C157_order`, `C157_dry`, `C157_ignore_false`, `C157_dry_false`, `C158_runs`, `C158_success`, `C158_dry`, `C159_inside`, `C160_hg_partial`, `C160_svn`, `C161_time`, `C161_svn`, `C161_hg_partial`, `C162_ends`, `C162_levels`, `C162_printed`, `C162_graph`, `C162_nothing`, `C162_nothing_false`, `C163_script`, `C164_vars`, `C165_code`, `C165_left_partial`, `C165_shell`, `C166_export_partial`, `C167_all`, `C167_library`, `C167_command`, `C167_command_false`, `C168_order`, `C168_results`, `C168_code`, `C168_summary`, `C169_paths`, `C169_elsewhere`, `C169_broken`, `C172_copied_partial`, `C173_script_partial`, `C174_yaml`, `C175_named_partial`, `C175_latest`, `C175_other`, `C175_before_partial`, `C175_found`, `C176_same`, `C176_order_false`, `C177_package`, `C177_overview_false`, `C177_nameless`, `C178_found`, `C178_part`, `C178_none`, `C180_known`, `C180_command`, `C180_known_tools`, `C181_request_false`, `C181_asked`, `C181_order`, `C181_gcc`, `C183_listed`, `C183_bound`, `C184_name`, `C185_scan_only`, `C185_scan_finds`, `C186_created`, `C186_last`, `C191_packages`, `C191_same`, `C192_bounded`, `C192_evict`, `C192_found`, `C192_refresh`, `C193_fields`, `C193_expression`, `C193_exact`, `C194_found`, `C194_answers`, `C195_families`, `C196_latest`, `C197_sorted`, `C197_prefix`, `C198_panics`, `C199_plain`, `C199_forms`, `C199_asked`, `C199_operator_false`, `C202_find`, `C202_tools`, `C205_lowest`, `C206_latest`, `C206_get`, `C207_iter`, `C207_names`, `C207_families`, `C207_walk`, `C207_unreadable`, `C208_text`, `C208_request`, `C208_completions`, `C208_released`, `C209_version`, `C209_paths`, `C210_version`, `C210_latest`, `C210_none`, `C210_place`, `C210_below`, `C210_repository`, `C211_tokens`, `C211_version`, `C212_module`, `C212_one`, `C212_quote_false`, `C213_python`, `C214_block`, `C214_end_false`, `C215_cheapest`, `C215_queue`, `C215_solution`, `C215_without`, `C215_price`, `C215_negative_false`, `C216_families`, `C216_remaining`, `C216_remaining_cheapest`, `C216_conflict_idle`, `C216_estimate`, `C216_conflict_heavy`, `C216_nonneg`, `C216_weights`, `C216_adaptive`, `C216_adaptive_raises`, `C216_preference`, `C216_repeated_false`, `C216_depth_false`, `C216_preference_false`, `C217_checksum`, `C217_crash`, `C217_fresh`, `C217_unchanged`, `C217_updated`, `C217_installs`, `C217_lines`, `C217_tag`, `C218_kept`, `C218_learned`, `C218_frequency`, `C218_predicted`, `C218_range`, `C218_regular`, `C218_queued`, `C218_bound`, `C218_third`, `C218_recommended`, `C218_manager`, `C218_locks`, `C218_deadlock_false`, `C218_told`, `C218_average`, `C218_lost_false`, `C218_past_false`, `C218_stale_false`, `C218_accuracy_false`, `C219_window`, `C219_measured`, `C219_outcomes`, `C219_recommended`, `C219_bounds`, `C219_history`, `C219_followed`, `C219_still`, `C219_monotone`, `C219_undisturbed`, `C219_manager`, `C219_locks`, `C219_shrinks_false`, `C219_rate_false`, `C219_counted_false`, `C220_packages`, `C220_others`, `C220_first`, `C220_cursor`, `C220_panics`, `C220_program_false`, `C221_kind`, `C221_plain`, `C221_validate`, `C221_fresh`, `C222_first`, `C222_all`, `C222_output`, `C223_entries`, `C223_once`, `C223_order`, `C223_deterministic`, `C223_apply`, `C223_identical`, `C223_mirror`, `C223_printed`, `C224_direct`, `C224_transitive`, `C224_names`, `C224_total`, `C224_printed`, `C224_unreadable`, `C225_specifier`, `C225_requirement`, `C225_exact`, `C225_dependents`, `C225_converted`, `C226_safe`, `C226_payload_false`, `C226_served`, `C226_counts`, `C226_recovered`, `C226_asked`, `C226_inside`, `C226_target`, `C226_clean`, `C226_table`, `C226_home`, `C227_exact`, `C227_lowest`, `C227_yaml`, `C227_python`, `C228_resolve`, `C228_interpret`, `C228_shell`, `C228_summary`, `C228_graph`, `C228_leak_false`, `C228_python_false`, `C229_session`, `C229_fails`, `C229_added`, `C229_tools`, `C229_list`, `C229_paths`, `C230_hash`, `C230_identify`, `C230_parents`, `C230_listed`, `C231_parts`, `C231_trim`, `C231_next`, `C231_next_word`, `C231_union`, `C231_equal`, `C232_search`, `C232_address`, `C232_format`, `C232_package`, `C232_command`, `C233_bash`, `C233_fish`, `C233_powershell`, `C234_get`, `C234_rate`, `C234_modes`, `C235_counters`, `C235_metrics`, `C235_rate`, `C235_events`, `C235_average`, `C235_percentiles`, `C235_benchmark`, `C235_order`, `C235_p95_false`, `C235_reset_false`, `C235_second_false`, `C236_level`, `C236_overall`, `C236_well`, `C236_range_false`, `C236_entry`, `C236_retention`, `C236_recent_false`, `C237_find`, `C237_types`, `C238_types`, `C238_listed_false`, `C239_dry`, `C239_versions`, `C240_script`, `C240_tools_false`, `C241_types`, `C242_python`, `C242_long`, `C243_package`, `C243_verbose`, `C244_roundtrip`, `C244_blanks`, `C244_read`, `C244_list`, `C245_find`, `C245_latest`, `C245_names`, `C246_answers`, `C246_rule`, `C246_pod`, `C247_tags`, `C247_packages`, `C247_sorted`, `C247_description`, `C249_loaded`, `C249_missing`, `C249_broken`, `C249_saved`, `C249_fallback_false`, `C249_formats_false`, `C249_includes_false`, `C250_script`, `C250_path`, `C250_supported`, `C250_default`, `C250_agree`, `C251_raises`, `C252_listed`, `C252_added`, `C252_removed`, `C252_ask`

* `Quot.sound`: `C149_optional_false`

* `Quot.sound,propext`: `C08_prefix_tokenwise`, `C09_prerelease`, `C14_subset_false_false`, `C14_subset_no_partial`, `C19_and_many`, `C19_or_many`, `C25_terminates_false`, `C25_spellings_false`, `C29_candidates_partial`, `C29_sorted_false`, `C34_accessibility_keys`, `C36_families_partial`, `C36_check_idle_false`, `C37_bounded`, `C37_ends`, `C39_last_put_partial`, `C42_some_put_partial`, `C42_no_overwrite_partial`, `C42_roomy_partial`, `C42_just_put`, `C42_served_again`, `C44_remove`, `C44_clear`, `C45_just_put`, `C46_last_put_partial`, `C46_no_error_partial`, `C46_collision_false`, `C46_crash_false`, `C52_37th_false`, `C53_timestamp_returns_partial`, `C53_panic_false`, `C54_split`, `C54_timestamp`, `C56_exact`, `C56_more_exclusions`, `C56_more_inclusions`, `C56_lists`, `C56_text_monotone`, `C58_vars`, `C58_aliases`, `C58_stopped`, `C59_context_powershell_partial`, `C60_error`, `C63_unique_partial`, `C63_add`, `C63_remove`, `C64_first`, `C64_last`, `C64_error`, `C64_prefix_partial`, `C64_hidden`, `C64_reachable`, `C65_assoc_false`, `C65_load`, `C66_visible_partial`, `C66_local`, `C66_dropped_false`, `C69_nothing_false`, `C69_limit`, `C71_identifier`, `C71_check`, `C71_truncate_partial`, `C71_truncate_ascii`, `C71_truncate_false`, `C71_truncate_panic_false`, `C71_list`, `C71_normalized`, `C73_exact`, `C73_asks_partial`, `C73_accepts`, `C76_env`, `C77_no_panic_partial`, `C80_disjoint_reported`, `C80_requirements_recorded`, `C81_exclusion_holds`, `C86_lookups_partial`, `C87_found_partial`, `C88_contains`, `C90_cleanup_partial`, `C90_restart_false`, `C91_lookups_partial`, `C92_subsecond_false`, `C93_stale_false`, `C96_remove_partial`, `C97_read_partial`, `C98_first`, `C98_default`, `C99_range`, `C99_time`, `C99_package_range`, `C102_statement_partial`, `C102_named`, `C103_texts`, `C104_merge_partial`, `C104_unset_false`, `C105_new_partial`, `C107_roundtrip`, `C107_crash_false`, `C107_crash_partial`, `C108_found`, `C108_listed_partial`, `C108_marker_false`, `C109_set_partial`, `C109_local`, `C109_underscore_false`, `C109_lock_false`, `C110_load`, `C112_dependents_false`, `C113_plugins_false`, `C114_vars_partial`, `C114_inherit_false`, `C116_crash_false`, `C116_name_false`, `C118_last`, `C119_source`, `C119_found`, `C119_succeeds`, `C119_crash_false`, `C121_version_partial`, `C121_family_partial`, `C121_reported`, `C121_preview_partial`, `C123_only`, `C125_panic_false`, `C126_listed`, `C126_shows_partial`, `C126_absent_partial`, `C126_directory_false`, `C127_directory_false`, `C128_dry_false`, `C128_dots_false`, `C129_family_partial`, `C130_families`, `C130_latest_false`, `C130_outside_false`, `C130_spelling_false`, `C131_get_partial`, `C131_names`, `C131_stats`, `C131_variants_partial`, `C132_limit_partial`, `C132_pattern_false`, `C134_metadata_false`, `C134_plain_partial`, `C134_text_partial`, `C134_commands_false`, `C134_binary_partial`, `C134_toml_partial`, `C134_strict`, `C135_backslash_false`, `C140_built_home`, `C140_built_relative`, `C140_variants_share`, `C140_variants_false`, `C140_chosen`, `C141_variables`, `C141_directories_partial`, `C142_success`, `C142_failure`, `C142_result`, `C142_events_partial`, `C143_skipped`, `C144_limit`, `C144_changed`, `C144_running_partial`, `C144_running_false`, `C145_reset_false`, `C145_dropped_false`, `C145_cancelled_false`, `C146_results`, `C146_returns`, `C146_cancelled_false`, `C146_dead_false`, `C147_leftOut`, `C147_crash`, `C147_inside_false`, `C148_script_false`, `C149_python_false`, `C150_python_partial`, `C150_script_partial`, `C150_script_false`, `C152_archive_partial`, `C152_archive_false`, `C152_elsewhere_false`, `C152_local_partial`, `C152_local_false`, `C153_dots_false`, `C154_missing_false`, `C154_skip`, `C155_stale_false`, `C155_gap_false`, `C157_failure`, `C157_variants_false`, `C157_unpushed_false`, `C157_crash_false`, `C157_options_false`, `C157_version_false`, `C157_vcs`, `C159_result`, `C160_git`, `C160_git_stays`, `C160_branches`, `C162_dot`, `C163_alias`, `C163_alias_star`, `C163_alias_command`, `C165_start`, `C166_export_false`, `C166_script`, `C166_dict`, `C167_dot_false`, `C168_dry`, `C169_here`, `C169_inplace`, `C171_request`, `C171_refused`, `C171_name`, `C172_within`, `C172_unresolved_false`, `C174_files`, `C176_exact`, `C176_lines`, `C178_flags`, `C178_status_false`, `C179_bound`, `C179_succeeds`, `C179_stopped`, `C179_missing_false`, `C179_outside_false`, `C180_unknown`, `C180_inject_false`, `C181_first`, `C182_bound`, `C182_succeeds`, `C182_quick_partial`, `C182_overwrite_false`, `C184_bare`, `C185_show`, `C185_metadata`, `C186_within`, `C186_stopped`, `C186_calls`, `C186_specs`, `C186_args`, `C186_verbose`, `C186_python`, `C187_program`, `C188_pattern`, `C188_excluded`, `C188_files`, `C189_directories`, `C189_fails`, `C189_counts`, `C190_result`, `C192_look`, `C193_exact_false`, `C193_regex_false`, `C193_case_false`, `C194_only`, `C194_fails`, `C194_date_false`, `C194_variant_false`, `C195_newest_false`, `C196_family_false`, `C197_limit`, `C197_latest_false`, `C197_date_false`, `C198_all`, `C198_description`, `C198_version_false`, `C199_command`, `C200_success`, `C200_env`, `C201_answer`, `C202_get`, `C202_validate`, `C202_versions`, `C202_commands`, `C203_ends`, `C203_format`, `C203_summary`, `C203_details`, `C203_json`, `C203_strict`, `C204_last`, `C204_scripts`, `C204_unknown_shell`, `C204_activation`, `C204_tools`, `C204_context`, `C206_range_false`, `C210_file`, `C210_handle`, `C211_intern`, `C211_two_turns`, `C212_string`, `C212_value`, `C212_items`, `C212_tuple_false`, `C212_nested_false`, `C212_empty_false`, `C212_large`, `C213_dump`, `C213_schema_false`, `C214_break_false`, `C214_quote_false`, `C217_check`, `C217_cleared`, `C217_given`, `C220_versions`, `C220_asked`, `C220_program`, `C220_subcommand_false`, `C221_scan`, `C221_once`, `C221_failed`, `C221_summary`, `C222_executable`, `C222_result`, `C223_counts`, `C223_fails`, `C225_install`, `C225_program`, `C225_write`, `C226_add`, `C226_printed`, `C226_prints`, `C226_log`, `C226_blocked`, `C226_remove_false`, `C227_current`, `C227_tests`, `C228_read`, `C228_tools`, `C228_which`, `C228_nodes`, `C228_created_false`, `C229_info`, `C229_create_false`, `C229_race_false`, `C229_crash_false`, `C230_maps`, `C230_kinds`, `C230_variant`, `C230_parent`, `C232_section`, `C232_entries`, `C232_missing`, `C232_help_false`, `C233_modes`, `C233_tempfile`, `C233_detect`, `C233_status`, `C233_print`, `C233_told`, `C233_variable`, `C233_unicode_false`, `C234_one`, `C234_counters`, `C234_lookup`, `C234_reductions`, `C235_sums`, `C235_bucket`, `C235_threads`, `C235_alone`, `C236_kept_false`, `C237_supported`, `C238_made`, `C238_reported_false`, `C239_valid`, `C239_released`, `C240_run`, `C240_found`, `C241_text`, `C241_failed`, `C241_detected`, `C241_scripts`, `C242_from_dict`, `C242_to_dict`, `C242_equal_false`, `C242_conflict`, `C243_searched`, `C243_about`, `C243_missing`, `C244_errors`, `C245_paths`, `C246_unreadable`, `C247_reads`, `C247_safe`, `C247_written`, `C249_frame`, `C251_contexts`, `C251_names`, `C251_attributes`, `C251_saved`, `C251_load`, `C251_tools`, `C252_constants`, `C252_contents`, `C252_others`

* `propext`: `C02_transitive_false`, `C02_equality_not_transitive`, `C02_token_cycle`, `C03_hash_false`, `C07_numeric_false`, `C10_plus_false`, `C11_intersect_false`, `C11_intersect_none_false`, `C12_union_false`, `C13_subtract_none_false`, `C13_subtract_any_false`, `C14_subset_true_false`, `C15_symmetric_false`, `C15_no_miss_false`, `C16_serialise_false`, `C17_is_any_false`, `C18_compatible_false`, `C19_and`, `C19_or`, `C20_round_trip_false`, `C20_empty_version_false`, `C21_dash_name_false`, `C21_dash_version_false`, `C22_agree_false`, `C22_agree_plus_false`, `C25_fuel_irrelevant`, `C26_package_conflict_false`, `C26_blank_conflict_false`, `C31_unresolvable_false`, `C32_order_false`, `C32_spurious_cycle_false`, `C33_readd_false`, `C33_dangling_false`, `C35_unsettled_false`, `C36_second_requirement_false`, `C36_dependency_false`, `C36_conflict_false`, `C36_unreadable_range_false`, `C36_leftover_false`, `C37_fuel_irrelevant`, `C38_repeat_false`, `C38_clear_partial`, `C42_overwrite_false`, `C45_same_second_false`, `C45_older_false`, `C45_deleted_false`, `C45_restart_false`, `C45_index_key_false`, `C47_remove_crash_false`, `C47_mixed_false`, `C48_many_false`, `C49_two_writers_false`, `C49_reader_false`, `C50_requirements_partial`, `C50_clock_false`, `C55_per_family_false`, `C55_list_false`, `C56_direct_false`, `C56_fraction_false`, `C57_family_false`, `C57_dash_false`, `C58_lists`, `C58_stop`, `C59_bash_false`, `C59_fish_false`, `C59_powershell_false`, `C60_reset_false`, `C63_name`, `C63_load_false`, `C64_prefix_false`, `C64_prefix_order_false`, `C66_replaced_false`, `C68_settled_partial`, `C68_broken_false`, `C68_unreadable_false`, `C69_latest_false`, `C69_limit_false`, `C71_identifier_false`, `C71_duration_false`, `C74_shorter_false`, `C75_arch_false`, `C76_order_false`, `C77_no_panic_false`, `C79_depth_false`, `C80_reported_false`, `C82_stale_failure_false`, `C88_size_false`, `C91_entries_false`, `C97_reader_crash_false`, `C99_ignored_false`, `C99_other_family_false`, `C100_lines_false`, `C100_version_false`, `C101_vars_false`, `C102_quote_false`, `C103_order_false`, `C103_dollar_false`, `C105_reuse_false`, `C108_first`, `C109_order_false`, `C110_user_false`, `C110_home`, `C111_stale_false`, `C112_graph_false`, `C112_paths_false`, `C116_ending_false`, `C119_self_false`, `C120_lost_false`, `C120_others_false`, `C120_layout_false`, `C122_lowest`, `C122_latest_false`, `C122_self_false`, `C122_dry`, `C123_ignored_false`, `C124_date`, `C124_panic_false`, `C124_overflow_false`, `C125_plain`, `C125_eaten_false`, `C126_missing`, `C127_stale_false`, `C129_readonly`, `C129_crash_false`, `C131_fresh`, `C131_gone`, `C131_duplicate_false`, `C131_own_false`, `C131_called_latest_false`, `C131_spelling_false`, `C131_refresh_false`, `C131_stats_false`, `C131_variants_false`, `C132_zero_false`, `C132_range_false`, `C133_dash_false`, `C133_spelling_false`, `C134_binary_text_false`, `C134_xml_false`, `C135_injection_false`, `C135_bool_false`, `C136_false`, `C137_chain_false`, `C137_or_false`, `C137_twice_false`, `C137_targets_false`, `C137_unpack_false`, `C137_format_false`, `C137_format_again_false`, `C137_format_braces_false`, `C137_format_bool_false`, `C137_spread_false`, `C137_format_version_false`, `C137_none_false`, `C137_repeat_false`, `C137_overflow_false`, `C137_list_tuple_false`, `C137_import_false`, `C137_function_false`, `C137_truth_false`, `C137_tests_false`, `C138_quote_false`, `C138_subscript_false`, `C138_late_false`, `C138_bool_false`, `C138_parts_false`, `C138_undefined_false`, `C140_installed`, `C140_separate`, `C140_built`, `C140_variants_partial`, `C140_outside_false`, `C140_home_false`, `C140_name_outside`, `C140_name_false`, `C141_options_false`, `C141_directories_false`, `C147_default_false`, `C147_nested_false`, `C147_stale_false`, `C147_itself_false`, `C148_listed_false`, `C148_listed_partial`, `C149_npm_false`, `C149_pypi`, `C149_nodejs`, `C149_copied`, `C150_make_partial`, `C150_cargo_partial`, `C150_cmake_partial`, `C152_fetch`, `C152_directory`, `C154_options`, `C155_prefix_false`, `C155_case_false`, `C155_variables`, `C158_bad`, `C158_dirty_false`, `C158_metadata_false`, `C158_tests_false`, `C158_dry_false`, `C158_told`, `C159_path`, `C159_again_false`, `C159_payload_false`, `C159_variants_false`, `C159_self_false`, `C159_default_false`, `C159_user_false`, `C161_format_false`, `C161_lines_false`, `C161_author_false`, `C162_graph_false`, `C162_version_false`, `C163_words`, `C163_fish_partial`, `C164_unset_false`, `C164_zsh_false`, `C165_both`, `C165_prints`, `C165_left_false`, `C165_killed_false`, `C165_names`, `C165_shows`, `C168_skipped_false`, `C168_missing_false`, `C169_refused`, `C169_named_false`, `C169_latest_false`, `C169_version_false`, `C170_words_partial`, `C170_single`, `C172_unversioned_false`, `C172_failed_false`, `C172_stale_false`, `C173_path_false`, `C173_moved_false`, `C173_relative_false`, `C173_name_false`, `C174_version_false`, `C175_previous_false`, `C175_version_false`, `C176_changed`, `C176_json_false`, `C177_repository_false`, `C178_letters_false`, `C179_refused`, `C179_version`, `C179_name_false`, `C179_crash_false`, `C180_quote_false`, `C181_missing_false`, `C182_dependencies_false`, `C182_shows`, `C182_requires_false`, `C182_quick_false`, `C183_order_false`, `C185_optional_false`, `C186_dry`, `C186_refused`, `C186_flags`, `C186_shared_false`, `C186_dependency_false`, `C186_nothing_false`, `C186_existing_false`, `C187_backslash_false`, `C188_dot_false`, `C188_inside_false`, `C188_above_false`, `C188_itself_false`, `C190_stale_false`, `C191_root_false`, `C191_stale_false`, `C192_clear`, `C192_directory_false`, `C198_values`, `C198_format_false`, `C199_context_false`, `C199_namespace_false`, `C200_missing_false`, `C201_request`, `C201_excluded_false`, `C201_settings`, `C201_latest_false`, `C202_family_false`, `C203_options`, `C203_lenient_false`, `C204_own`, `C204_path_false`, `C205_versions`, `C205_member`, `C205_latest_false`, `C206_versionless_false`, `C206_equal_false`, `C207_order_false`, `C207_broken_false`, `C207_fails`, `C208_developer`, `C208_hyphen_false`, `C208_request_false`, `C209_paths_false`, `C210_total`, `C210_family`, `C210_directory_false`, `C210_absolute_false`, `C211_version_false`, `C212_escape_false`, `C212_number_false`, `C214_line`, `C216_depth`, `C217_same`, `C217_leftover_false`, `C217_older_false`, `C217_cleanup_false`, `C220_names`, `C220_options`, `C220_forward`, `C220_exit`, `C221_record`, `C221_missing_false`, `C221_changed_false`, `C221_kind_false`, `C222_path`, `C222_writable`, `C222_untouched`, `C222_unset_false`, `C222_probe_false`, `C223_equal_false`, `C223_ranges_false`, `C223_conflict_false`, `C223_texts`, `C224_far_false`, `C224_conflict_false`, `C224_variants_false`, `C224_panic_false`, `C224_range`, `C225_above_false`, `C225_upper_false`, `C225_underscore_false`, `C225_forms_false`, `C225_hyphen_false`, `C225_writes`, `C226_named`, `C226_where`, `C226_outside_false`, `C226_underscore_false`, `C226_panic_false`, `C227_directory`, `C227_fields`, `C227_brief`, `C227_latest_false`, `C227_commands_false`, `C228_source`, `C228_request`, `C228_draw`, `C228_ignored_false`, `C228_which_false`, `C228_uris_false`, `C228_blanks_false`, `C228_escape_false`, `C228_arrow_false`, `C228_prune_false`, `C228_stale_false`, `C228_twice_false`, `C229_missing`, `C229_prefix_false`, `C230_parent_is`, `C230_texts`, `C230_family_false`, `C230_variants_false`, `C230_text_false`, `C230_dropped_false`, `C230_epsilon_false`, `C231_new`, `C231_hash`, `C231_hash_false`, `C231_parts_false`, `C231_trim_false`, `C231_next_false`, `C231_union_false`, `C231_equal_false`, `C232_python`, `C232_not_found`, `C232_manual`, `C232_zero_false`, `C232_configured_false`, `C233_manager`, `C233_lists`, `C233_line_false`, `C233_temp_false`, `C233_cmd_false`, `C233_active_false`, `C234_since`, `C234_statuses`, `C235_since`, `C235_peak_false`, `C237_plugins`, `C238_calls`, `C238_lines`, `C239_flags`, `C239_modes`, `C239_order_false`, `C240_dry`, `C240_escaped_false`, `C241_variants_false`, `C242_to_dict_false`, `C242_equal`, `C242_requirements`, `C242_conflict_false`, `C242_python_false`, `C243_listing`, `C243_words_false`, `C245_error`, `C245_latest_false`, `C246_bad`, `C246_neither_false`, `C247_order_false`, `C247_once_false`, `C247_description_false`, `C248_plain`, `C248_env`, `C248_build`, `C248_usage`, `C248_empty`, `C248_before`, `C248_others`, `C248_dashes_false`, `C248_blank_false`, `C248_code_false`, `C251_mode`, `C251_unknown_tool_false`, `C252_codes`, `C252_descriptions`, `C252_unknown_false`, `C252_get`, `C252_raises`, `C252_force`, `C252_again`, `C252_remove_iff`, `C252_place`, `C252_hidden_false`, `C252_copying_false`
