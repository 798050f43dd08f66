{"id": "C01", "title": "Version comparison is reflexive and swap-symmetric", "statement": "For any two versions a and b, comparing b with a gives exactly the mirror image of comparing a with b, and comparing a version with itself gives equal. So < and > are never both true and == is symmetric.", "quantifier": "all pairs of versions, any tokens, any length", "why_tests_cant": "a counterexample can hide in any pair of strings (overflowing digit runs, mixed tokens, implicit zeros)", "anchors": ["crates/rez-next-version/src/version.rs:compare_rez", "crates/rez-next-version/src/version.rs:compare_single_token", "crates/rez-next-version/src/version.rs:compare_token_strings"]}
{"id": "C02", "title": "Version comparison is a total order", "statement": "Version comparison is transitive: a <= b and b <= c imply a <= c, and == is an equivalence. Sorting, max and range membership rely on it.", "quantifier": "all triples of versions", "why_tests_cant": "transitivity ranges over triples of unbounded strings; a suite samples a few", "anchors": ["crates/rez-next-version/src/version.rs:compare_rez", "crates/rez-next-version/src/version.rs:compare_token_strings", "crates/rez-next-version/src/version.rs:compare_single_token"]}
{"id": "C03", "title": "Equal versions hash equally", "statement": "If two versions compare equal then they hash to the same value, so a hash map or set keyed by version never holds two equal keys.", "quantifier": "all pairs of versions", "why_tests_cant": "an Eq/Hash mismatch only shows on the right pair of spellings", "anchors": ["crates/rez-next-version/src/version.rs:impl Hash for Version", "crates/rez-next-version/src/version.rs:impl PartialEq for Version"]}
{"id": "C04", "title": "Parsing then printing a version loses nothing", "statement": "If a string parses as a version, then the printed form parses again to the identical version; the printed form is the trimmed input (except that 'epsilon' prints as the empty string), and for an ordinary version the tokens interleaved with the separators spell the printed form exactly. JSON serialisation of a version goes through the same pair.", "quantifier": "every input string", "why_tests_cant": "the set of strings is infinite", "anchors": ["crates/rez-next-version/src/version.rs:parse", "crates/rez-next-version/src/version.rs:parse_internal_gil_free", "crates/rez-next-version/src/version.rs:as_str"]}
{"id": "C05", "title": "Version parsing accepts exactly the documented grammar", "statement": "A (trimmed, non-special) string is accepted exactly when it is a sequence of 1 to 10 tokens of ASCII letters, digits and underscores, separated by single '.', '-' or '+' characters, with at most five all-digit tokens, no leading v/V, no token that starts or ends with an underscore, no all-letter token longer than ten, and no token 'not' or 'version'.", "quantifier": "every input string", "why_tests_cant": "acceptance and rejection must both be right for every string", "anchors": ["crates/rez-next-version/src/version.rs:parse_internal_gil_free"]}
{"id": "C06", "title": "The infinite version is greatest and the empty version is least", "statement": "Version::inf() is >= every version and strictly greater than every parsed version other than 'inf'; Version::empty() is <= every version and strictly less than every parsed non-empty one.", "quantifier": "every version", "why_tests_cant": "quantifies over all versions", "anchors": ["crates/rez-next-version/src/version.rs:inf", "crates/rez-next-version/src/version.rs:empty", "crates/rez-next-version/src/version.rs:compare_rez"]}
{"id": "C07", "title": "Numeric components compare as numbers", "statement": "Two versions made only of numeric components and with the same number of components compare in the lexicographic order of the numbers written, whatever their magnitude.", "quantifier": "all pairs of equally long lists of natural numbers", "why_tests_cant": "magnitudes are unbounded; overflow appears only past 2^63 and 2^64", "anchors": ["crates/rez-next-version/src/version.rs:compare_single_token", "crates/rez-next-version/src/version.rs:compare_token_strings"]}
{"id": "C08", "title": "Prefix matching is token-wise and nested prefixes compose", "statement": "A version has a prefix exactly when its first tokens equal the prefix's tokens one by one; every version is a prefix of itself, and a prefix of a prefix is a prefix.", "quantifier": "all pairs and triples of versions", "why_tests_cant": "unbounded lengths and token spellings", "anchors": ["crates/rez-next-version/src/version.rs:has_prefix"]}
{"id": "C09", "title": "Prerelease detection depends only on marker words", "statement": "is_prerelease holds exactly when some token contains one of alpha, beta, rc, dev, pre, snapshot ignoring case; the empty and infinite versions are never prereleases.", "quantifier": "every version", "why_tests_cant": "every position and case spelling of the markers", "anchors": ["crates/rez-next-version/src/version.rs:is_prerelease"]}
{"id": "C10", "title": "A range string means what its operators say", "statement": "A parsed range built from alternatives separated by '|', each a comma list of operator-version constraints, contains a version exactly when some alternative has all its constraints true of the version. The forms 'a+', 'a+<b' and 'a..b' mean >=a, >=a,<b and >=a,<b.", "quantifier": "all lists of lists of constraints and all versions", "why_tests_cant": "compositional meaning over unbounded nesting", "anchors": ["crates/rez-next-version/src/range/parser.rs:parse_range_str", "crates/rez-next-version/src/range/parser.rs:parse_conjunction", "crates/rez-next-version/src/range/parser.rs:split_constraint_parts", "crates/rez-next-version/src/range/parser.rs:parse_single_constraint", "crates/rez-next-version/src/range/mod.rs:contains"]}
{"id": "C11", "title": "Range intersection contains exactly the common versions", "statement": "r1.intersect(r2) contains v exactly when both contain v, and returns None only when no version is in both.", "quantifier": "all pairs of ranges (however built) and all versions", "why_tests_cant": "ranges are built by arbitrary histories of parse/intersect/union/subtract", "anchors": ["crates/rez-next-version/src/range/mod.rs:intersect", "crates/rez-next-version/src/range/satisfiability.rs:is_bound_set_satisfiable", "crates/rez-next-version/src/range/mod.rs:is_any"]}
{"id": "C12", "title": "Range union contains exactly the versions of either", "statement": "r1.union(r2) contains v exactly when r1 or r2 contains v.", "quantifier": "all pairs of ranges however built and all versions", "why_tests_cant": "depends on the history that built the operands", "anchors": ["crates/rez-next-version/src/range/mod.rs:union"]}
{"id": "C13", "title": "Range subtraction removes exactly the other range", "statement": "If r1.subtract(r2) is Some(r) then r contains v exactly when r1 does and r2 does not; None is returned only if every version of r1 is in r2.", "quantifier": "all pairs of ranges and all versions", "why_tests_cant": "the implementation only probes finitely many versions", "anchors": ["crates/rez-next-version/src/range/mod.rs:subtract", "crates/rez-next-version/src/range/mod.rs:collect_probe_versions_with_other"]}
{"id": "C14", "title": "is_subset_of decides inclusion", "statement": "r1.is_subset_of(r2) is true exactly when every version contained in r1 is contained in r2.", "quantifier": "all pairs of ranges, all versions", "why_tests_cant": "the implementation itself is a finite sample of versions", "anchors": ["crates/rez-next-version/src/range/mod.rs:is_subset_of", "crates/rez-next-version/src/range/mod.rs:collect_probe_versions_with_other"]}
{"id": "C15", "title": "intersects never misses a common version and is symmetric", "statement": "If some version lies in both ranges then r1.intersects(r2) is true; and r1.intersects(r2) = r2.intersects(r1).", "quantifier": "all pairs of ranges, all versions", "why_tests_cant": "needs a bound-contradiction argument for every version", "anchors": ["crates/rez-next-version/src/range/mod.rs:intersects", "crates/rez-next-version/src/range/satisfiability.rs:bound_sets_intersect"]}
{"id": "C16", "title": "Serialising a version range keeps its meaning", "statement": "A version range written to JSON and read back contains the same versions.", "quantifier": "all ranges, all versions", "why_tests_cant": "fields skipped by the serialiser matter for every range", "anchors": ["crates/rez-next-version/src/range/mod.rs:VersionRange"]}
{"id": "C17", "title": "is_any and is_empty tell the truth", "statement": "If is_any() holds the range contains every version; if is_empty() holds it contains none.", "quantifier": "all ranges however built, all versions", "why_tests_cant": "depends on how the range was built", "anchors": ["crates/rez-next-version/src/range/mod.rs:is_any", "crates/rez-next-version/src/range/mod.rs:is_empty"]}
{"id": "C18", "title": "The compatible-release bound has the documented interval", "statement": "'~=X.Y' contains v exactly when X.Y <= v < (X+1).0 and '~=X.Y.Z' exactly when X.Y.Z <= v < X.(Y+1).0.", "quantifier": "all X, Y, Z and all versions", "why_tests_cant": "X and Y are unbounded and the increment can overflow", "anchors": ["crates/rez-next-version/src/range/types.rs:bound_matches"]}
{"id": "C19", "title": "Combining constraints with and/or is conjunction/disjunction", "statement": "For version constraints c and d, c.and(d) is satisfied by v exactly when both are, and c.or(d) exactly when at least one is, however c and d were themselves combined.", "quantifier": "all constraints (any nesting) and versions", "why_tests_cant": "nesting is unbounded and the combinators flatten", "anchors": ["crates/rez-next-package/src/requirement/types.rs:VersionConstraint::and", "crates/rez-next-package/src/requirement/types.rs:VersionConstraint::or", "crates/rez-next-package/src/requirement/types.rs:VersionConstraint::is_satisfied_by"]}
{"id": "C20", "title": "Printing then parsing a requirement gives the same requirement", "statement": "For every requirement value obtained by parsing, printing and parsing again gives an equal requirement.", "quantifier": "all requirement strings", "why_tests_cant": "flags, namespaces, conditions and constraints combine freely", "anchors": ["crates/rez-next-package/src/requirement/display.rs:Display for Requirement", "crates/rez-next-package/src/requirement/parser.rs:RequirementParser::parse"]}
{"id": "C21", "title": "Requirement operators parse to the constraint they spell", "statement": "'name' followed by ==, >=, <=, >, <, ~= and a version parses to that name with that constraint; 'name-V+', 'name-V+<W', 'name-V' parse to >=V, >=V,<W and prefix V; '!' and '~' mark conflict and weak.", "quantifier": "all names over the allowed alphabet and all versions", "why_tests_cant": "names may contain dashes, dots and digits that interact with the version syntax", "anchors": ["crates/rez-next-package/src/requirement/parser.rs:parse_name_and_version", "crates/rez-next-package/src/requirement/parser.rs:parse_rez_version_spec"]}
{"id": "C22", "title": "The two requirement types agree", "statement": "For one and the same requirement string the solver-side requirement and the context-side requirement accept the same versions, so that a solved context validates.", "quantifier": "all requirement strings and versions", "why_tests_cant": "two separate parsers and matchers", "anchors": ["crates/rez-next-package/src/package/requirement.rs:PackageRequirement::satisfied_by", "crates/rez-next-package/src/requirement/types.rs:Requirement::is_satisfied_by", "crates/rez-next-context/src/context.rs:validate"]}
{"id": "C23", "title": "A successful strict resolve satisfies every requirement", "statement": "If resolve in strict mode succeeds then every requested requirement, and every requirement of every resolved package, is satisfied by a package in the result.", "quantifier": "all repositories, all request lists", "why_tests_cant": "the search is a backtracking loop over an unbounded repository", "anchors": ["crates/rez-next-solver/src/dependency_resolver.rs:resolve", "crates/rez-next-solver/src/dependency_resolver.rs:resolve_recursive", "crates/rez-next-solver/src/resolution_state.rs:find_satisfying_package"]}
{"id": "C24", "title": "A resolve holds at most one package per family", "statement": "The resolved list never contains two packages with the same name.", "quantifier": "all repositories and requests, every step of the search", "why_tests_cant": "must hold after every backtrack", "anchors": ["crates/rez-next-solver/src/resolution_state.rs:add_resolved_package", "crates/rez-next-solver/src/dependency_resolver.rs:resolve_recursive"]}
{"id": "C25", "title": "resolve terminates", "statement": "For every finite repository and request the resolver returns.", "quantifier": "all repositories and requests", "why_tests_cant": "non-termination cannot be observed by a finite test", "anchors": ["crates/rez-next-solver/src/dependency_resolver.rs:resolve_recursive", "crates/rez-next-solver/src/dependency_resolver.rs:backtrack_package"]}
{"id": "C26", "title": "Conflict requirements exclude packages", "statement": "If a resolve succeeds and '!X-range' was requested or is required by a resolved package, then no package X in that range is in the result.", "quantifier": "all repositories and requests", "why_tests_cant": "order in which conflicts and packages are processed varies", "anchors": ["crates/rez-next-solver/src/resolution_state.rs:check_explicit_conflicts", "crates/rez-next-solver/src/dependency_resolver.rs:resolve_recursive"]}
{"id": "C27", "title": "Resolved packages come from the repositories and nothing is invented", "statement": "Every package in the result is a package some repository lists under that name (with one of its variants applied).", "quantifier": "all repositories and requests", "why_tests_cant": "all search paths", "anchors": ["crates/rez-next-solver/src/dependency_resolver.rs:find_candidate_packages", "crates/rez-next-solver/src/dependency_resolver.rs:materialized_package"]}
{"id": "C28", "title": "Weak requirements never pull a package in", "statement": "A package is in the result only if it is required, through a chain of non-weak non-conflict requirements, by the request.", "quantifier": "all repositories and requests", "why_tests_cant": "orphans can remain after backtracking in some history", "anchors": ["crates/rez-next-solver/src/resolution_state.rs:prune_orphaned_packages", "crates/rez-next-solver/src/dependency_resolver.rs:resolve_recursive"]}
{"id": "C29", "title": "Candidates are exactly the acceptable versions, newest first", "statement": "The candidate list for a requirement holds exactly the repository packages of that family that satisfy the requirement and the prerelease policy, sorted newest first (or oldest first when so configured).", "quantifier": "all package lists and requirements", "why_tests_cant": "any list length and order", "anchors": ["crates/rez-next-solver/src/dependency_resolver.rs:filter_and_sort_candidates"]}
{"id": "C30", "title": "Cycle detection in a resolve is exact", "statement": "A cycle is reported exactly when the 'requires' relation among resolved packages has a cycle, and the reported path is one.", "quantifier": "all finite dependency relations", "why_tests_cant": "all graphs", "anchors": ["crates/rez-next-solver/src/resolution_state.rs:detect_cycle", "crates/rez-next-solver/src/resolution_state.rs:dfs_cycle"]}
{"id": "C31", "title": "An unresolvable verdict is right", "statement": "If strict resolve fails then no assignment of packages satisfies the request.", "quantifier": "all repositories and requests", "why_tests_cant": "needs all assignments", "anchors": ["crates/rez-next-solver/src/dependency_resolver.rs:resolve"]}
{"id": "C32", "title": "Resolved packages are listed in dependency order", "statement": "get_resolved_packages succeeds exactly on graphs without a dependency cycle, lists each package once, and lists every package before the packages it depends on.", "quantifier": "all dependency graphs built by any operation history, all hash iteration orders", "why_tests_cant": "all histories of add/remove/edge operations", "anchors": ["crates/rez-next-solver/src/graph.rs:get_resolved_packages", "crates/rez-next-solver/src/graph.rs:topological_sort", "crates/rez-next-solver/src/graph.rs:add_package", "crates/rez-next-solver/src/graph.rs:add_dependency_edge", "crates/rez-next-solver/src/graph.rs:remove_package"]}
{"id": "C33", "title": "Graph edges stay mirrored", "statement": "After any sequence of graph operations, A lists B as a dependency exactly when B lists A as a dependent, and both endpoints exist.", "quantifier": "all operation sequences", "why_tests_cant": "history dependent", "anchors": ["crates/rez-next-solver/src/graph.rs:add_dependency_edge", "crates/rez-next-solver/src/graph.rs:remove_package", "crates/rez-next-solver/src/graph.rs:add_package"]}
{"id": "C34", "title": "Reachability queries are exact", "statement": "accessibility(x) is exactly the set of packages reachable from x along dependency edges, and find_cycle returns a real cycle whenever one exists.", "quantifier": "all graphs", "why_tests_cant": "all graphs, all depths", "anchors": ["crates/rez-next-solver/src/graph.rs:accessibility", "crates/rez-next-solver/src/graph.rs:find_cycle", "crates/rez-next-solver/src/graph.rs:dfs_find_cycle"]}
{"id": "C35", "title": "Resolving a version conflict settles it", "statement": "After resolving a reported conflict with LatestWins (EarliestWins) and applying the resolution, the family is no longer in conflict, the version chosen is the greatest (least) named by its requirements, the requirements of other families are unchanged, and no package other than the ones that introduced the conflict leaves the graph.", "quantifier": "all graphs and conflicts", "why_tests_cant": "all graphs", "anchors": ["crates/rez-next-solver/src/graph.rs:apply_conflict_resolution", "crates/rez-next-solver/src/graph.rs:detect_conflicts", "crates/rez-next-solver/src/conflict.rs:resolve_latest_wins", "crates/rez-next-solver/src/conflict.rs:resolve_earliest_wins"]}
{"id": "C36", "title": "A* search results satisfy the request", "statement": "If the A* search returns a goal, every initial requirement and every dependency of every resolved package is satisfied by it.", "quantifier": "all repositories, requests, heuristics", "why_tests_cant": "all search histories", "anchors": ["crates/rez-next-solver/src/astar/astar_search.rs:search", "crates/rez-next-solver/src/astar/astar_search.rs:create_successor_state", "crates/rez-next-solver/src/astar/search_state.rs:remove_requirement"]}
{"id": "C37", "title": "A* search is bounded and never expands a state twice", "statement": "A search expands at most max_states states and never expands two states with the same identity hash.", "quantifier": "all inputs and bounds", "why_tests_cant": "all schedules of the priority queue", "anchors": ["crates/rez-next-solver/src/astar/astar_search.rs:search"]}
{"id": "C38", "title": "Repeating an A* search gives the same answer", "statement": "Searching the same request twice on one searcher gives the same result.", "quantifier": "all inputs", "why_tests_cant": "history dependent", "anchors": ["crates/rez-next-solver/src/astar/astar_search.rs:search", "crates/rez-next-solver/src/astar/astar_search.rs:clear"]}
{"id": "C39", "title": "The solver cache returns only the last value put, and only while fresh", "statement": "After any sequence of put/get/remove/cleanup, get(k) is either a miss or exactly the value of the last put(k) not followed by a remove, and its age is within the TTL.", "quantifier": "all operation histories and clocks", "why_tests_cant": "history dependent", "anchors": ["crates/rez-next-solver/src/cache.rs:get", "crates/rez-next-solver/src/cache.rs:put", "crates/rez-next-solver/src/cache.rs:cleanup"]}
{"id": "C40", "title": "The solver cache never exceeds its capacity", "statement": "After any sequence of operations the number of entries is at most max_entries, for every eviction strategy.", "quantifier": "all operation histories", "why_tests_cant": "history dependent", "anchors": ["crates/rez-next-solver/src/cache.rs:put", "crates/rez-next-solver/src/cache.rs:evict_entries"]}
{"id": "C41", "title": "Cache operations cannot deadlock", "statement": "Concurrent get/put/remove/cleanup on one cache always can make progress.", "quantifier": "all interleavings of any number of tasks", "why_tests_cant": "interleavings cannot be enumerated by tests", "anchors": ["crates/rez-next-solver/src/cache.rs:put", "crates/rez-next-solver/src/cache.rs:cleanup", "crates/rez-next-repository/src/cache.rs:put", "crates/rez-next-repository/src/cache.rs:get"]}
{"id": "C42", "title": "The two-level cache never serves a value older than the last put", "statement": "After put(k,v), every get(k) until the next put or remove returns v or a miss.", "quantifier": "all operation histories", "why_tests_cant": "needs a specific eviction/demotion history", "anchors": ["crates/rez-next-cache/src/intelligent_manager.rs:put", "crates/rez-next-cache/src/intelligent_manager.rs:get", "crates/rez-next-cache/src/intelligent_manager.rs:demote_to_l2", "crates/rez-next-cache/src/intelligent_manager.rs:evict_l1_entries"]}
{"id": "C43", "title": "The two-level cache respects its level capacities", "statement": "After any sequence of operations each level holds at most its configured number of entries.", "quantifier": "all operation histories", "why_tests_cant": "history dependent", "anchors": ["crates/rez-next-cache/src/intelligent_manager.rs:put", "crates/rez-next-cache/src/intelligent_manager.rs:promote_to_l1", "crates/rez-next-cache/src/intelligent_manager.rs:evict_l1_entries", "crates/rez-next-cache/src/intelligent_manager.rs:evict_l2_entries"]}
{"id": "C44", "title": "remove and clear make keys absent", "statement": "After remove(k) or clear, get(k) and contains_key(k) report absent until the next put(k).", "quantifier": "all histories", "why_tests_cant": "history dependent", "anchors": ["crates/rez-next-cache/src/intelligent_manager.rs:remove", "crates/rez-next-cache/src/intelligent_manager.rs:clear", "crates/rez-next-cache/src/intelligent_manager.rs:contains_key"]}
{"id": "C45", "title": "The repository cache never serves stale data", "statement": "A repository cache hit implies the source file is unchanged since it was cached and the TTL has not passed; entries survive a restart.", "quantifier": "all histories of file changes, clocks and restarts", "why_tests_cant": "history and clock dependent", "anchors": ["crates/rez-next-repository/src/cache.rs:is_valid", "crates/rez-next-repository/src/cache.rs:get", "crates/rez-next-repository/src/cache.rs:load_cache_index"]}
{"id": "C46", "title": "The file package cache returns the package cached for that path", "statement": "get(path) returns only what was put for that path, and a crash during put never makes later reads fail.", "quantifier": "all paths, histories and crash points", "why_tests_cant": "crash points and hash collisions", "anchors": ["crates/rez-next-package-cache/src/lib.rs:FileCache::get", "crates/rez-next-package-cache/src/lib.rs:FileCache::put", "crates/rez-next-package-cache/src/lib.rs:cache_file_path"]}
{"id": "C47", "title": "A variant reported as cached has its complete payload", "statement": "At every moment, including after a crash at any point of add_variant or remove_variant, if the payload cache reports a variant as found then its payload is complete.", "quantifier": "all crash points of all operations in any history", "why_tests_cant": "crash points", "anchors": ["crates/rez-next-package/src/package_cache.rs:add_variant", "crates/rez-next-package/src/package_cache.rs:remove_variant", "crates/rez-next-package/src/package_cache.rs:get_cached_root"]}
{"id": "C48", "title": "Caching one variant never disturbs another", "statement": "Adding a variant leaves every other cached variant found with its own payload.", "quantifier": "all histories of adds", "why_tests_cant": "needs many entries in one bucket", "anchors": ["crates/rez-next-package/src/package_cache.rs:next_increment", "crates/rez-next-package/src/package_cache.rs:add_variant", "crates/rez-next-package/src/package_cache.rs:increment_string"]}
{"id": "C49", "title": "Concurrent cachers of one variant do not corrupt it", "statement": "If several processes cache the same variant at once, a reader that sees it as found sees a complete payload.", "quantifier": "all interleavings", "why_tests_cant": "interleavings", "anchors": ["crates/rez-next-package/src/package_cache.rs:add_variant", "crates/rez-next-package/src/package_cache.rs:get_cached_root"]}
{"id": "C50", "title": "Disk space checks and cleaning are exact", "statement": "The space check passes only if free space after the copy stays above the minimum; clean removes exactly the entries whose last access is older than the limit.", "quantifier": "all sizes and clocks", "why_tests_cant": "unsigned wrap-around and clock skew", "anchors": ["crates/rez-next-package/src/package_cache.rs:check_disk_space", "crates/rez-next-package/src/package_cache.rs:clean"]}
{"id": "C51", "title": "Base-26 names count upwards without repetition", "statement": "get_next_base26 is the successor in the sequence a, b, ..., z, aa, ab, ...: iterating it from 'a' never repeats a name and the nth name is the bijective base-26 numeral of n.", "quantifier": "all n, all valid names", "why_tests_cant": "unbounded sequence", "anchors": ["crates/rez-next-util/src/base26.rs:get_next_base26"]}
{"id": "C52", "title": "A unique symlink can always be created", "statement": "However many base-26 links a directory already holds (with no concurrent writers), creating another succeeds with a fresh name.", "quantifier": "all directory sizes", "why_tests_cant": "needs more than 26 links", "anchors": ["crates/rez-next-util/src/base26.rs:create_unique_base26_symlink", "crates/rez-next-util/src/base26.rs:get_max_base26_name"]}
{"id": "C53", "title": "Package orderers return a permutation", "statement": "For every orderer configuration, reorder returns a list with exactly the same packages, and never panics.", "quantifier": "all orderers and package lists", "why_tests_cant": "all lists", "anchors": ["crates/rez-next-package/src/package_order.rs:reorder", "crates/rez-next-package/src/package_order.rs:VersionSplitPackageOrder", "crates/rez-next-package/src/package_order.rs:PerFamilyOrder", "crates/rez-next-package/src/package_order.rs:TimestampPackageOrder"]}
{"id": "C54", "title": "Package orderers sort as documented", "statement": "A sorted orderer lists versions in the requested direction, versionless packages last; a version-split orderer lists all versions <= the split before all versions > it.", "quantifier": "all package lists", "why_tests_cant": "all lists", "anchors": ["crates/rez-next-package/src/package_order.rs:SortedOrder", "crates/rez-next-package/src/package_order.rs:VersionSplitPackageOrder"]}
{"id": "C55", "title": "Orderer configuration survives serialisation", "statement": "An orderer converted to its plain description and back orders every list the same way.", "quantifier": "all orderers", "why_tests_cant": "all configurations", "anchors": ["crates/rez-next-package/src/package_order.rs:to_pod", "crates/rez-next-package/src/package_order.rs:from_pod"]}
{"id": "C56", "title": "Package filters: an inclusion overrides an exclusion", "statement": "A package is filtered out exactly when some exclusion rule for its family (or global) matches and no inclusion rule for its family (or global) matches; adding exclusions never admits more packages, adding inclusions never admits fewer.", "quantifier": "all rule sets and packages", "why_tests_cant": "all rule sets", "anchors": ["crates/rez-next-package/src/filter.rs:excludes", "crates/rez-next-package-filter/src/filter.rs:excludes"]}
{"id": "C57", "title": "Filter configuration survives serialisation", "statement": "A package filter converted to its plain description and back filters the same packages.", "quantifier": "all filters and packages", "why_tests_cant": "all configurations", "anchors": ["crates/rez-next-package/src/filter.rs:to_pod", "crates/rez-next-package/src/filter.rs:from_pod", "crates/rez-next-package-filter/src/filter.rs:to_pod", "crates/rez-next-package-filter/src/filter.rs:from_pod"]}
{"id": "C58", "title": "Rex actions apply in order and stop halts everything after it", "statement": "Applying a list of actions is the in-order composition of their effects; nothing after a stop has any effect; prepend/append put the value at the front/back of the path list.", "quantifier": "all action lists and environments", "why_tests_cant": "all lists", "anchors": ["crates/rez-next-rex/src/lib.rs:RexEnvironment::apply", "crates/rez-next-rex/src/lib.rs:apply_action"]}
{"id": "C59", "title": "A generated shell script reproduces each variable's exact value", "statement": "For each variable, the assignment line emitted for bash (and PowerShell, fish) evaluates, under that shell's quoting rules, to exactly the variable's value.", "quantifier": "all values", "why_tests_cant": "all strings, including quoting metacharacters", "anchors": ["crates/rez-next-rex/src/shell.rs:bash", "crates/rez-next-context/src/environment.rs:escape_bash_value", "crates/rez-next-context/src/environment.rs:escape_powershell_value"]}
{"id": "C60", "title": "Environment generation honours phases and overrides", "statement": "All pre_commands take effect before all commands, all commands before all post_commands, configured additional variables override package definitions, and variables listed to unset are absent.", "quantifier": "all package lists and definitions", "why_tests_cant": "all lists", "anchors": ["crates/rez-next-context/src/environment.rs:generate_rex_environment", "crates/rez-next-context/src/environment.rs:apply_env_definition"]}
{"id": "C61", "title": "Path normalisation removes duplicates and keeps first-occurrence order", "statement": "After normalisation a path list has no duplicate entry, keeps the order of first occurrences, keeps exactly the same set of entries, and normalising again changes nothing.", "quantifier": "all path strings", "why_tests_cant": "all lists", "anchors": ["crates/rez-next-context/src/environment.rs:normalize_environment_paths"]}
{"id": "C62", "title": "The environment diff is exact", "statement": "Applying the reported additions, changes and removals to the old environment gives the new one, and nothing unchanged is reported.", "quantifier": "all pairs of environments", "why_tests_cant": "all maps", "anchors": ["crates/rez-next-context/src/environment.rs:get_env_diff"]}
{"id": "C63", "title": "A suite never holds two contexts of one name", "statement": "After any sequence of add/remove context operations names are unique, valid, and get_context returns what was added.", "quantifier": "all operation sequences", "why_tests_cant": "history dependent", "anchors": ["crates/rez-next-suites/src/suite.rs:add_context", "crates/rez-next-suites/src/suite.rs:remove_context", "crates/rez-next-suites/src/suite.rs:get_context"]}
{"id": "C64", "title": "Suite tools resolve clashes by the chosen mode", "statement": "With mode First the earliest context that exposes a tool name provides it, with Last the latest, with Error any clash is reported, hidden and disabled ones never appear; with Prefix no exposed tool is lost.", "quantifier": "all suites", "why_tests_cant": "all context/tool layouts and map orders", "anchors": ["crates/rez-next-suites/src/suite.rs:get_tools"]}
{"id": "C65", "title": "Later configuration wins, key by key", "statement": "After merging a config layer, a dotted lookup gives the later layer's scalar where it defines one and the earlier value elsewhere; merging is idempotent and associative.", "quantifier": "all configuration trees and keys", "why_tests_cant": "all trees", "anchors": ["crates/rez-next-config/src/lib.rs:merge_value", "crates/rez-next-config/src/lib.rs:get", "crates/rez-next-config/src/lib.rs:set_nested_value"]}
{"id": "C66", "title": "Setting a nested key is visible and local", "statement": "After setting a dotted key, looking it up gives the value set, and keys that are not on its path keep their value.", "quantifier": "all trees and keys", "why_tests_cant": "all trees", "anchors": ["crates/rez-next-config/src/lib.rs:set_nested_value", "crates/rez-next-config/src/lib.rs:apply_env_overrides"]}
{"id": "C67", "title": "Asking for the latest package searches all repositories", "statement": "get_package(name, no version) returns the highest version over all registered repositories.", "quantifier": "all repository lists", "why_tests_cant": "all layouts", "anchors": ["crates/rez-next-repository/src/simple_repository.rs:RepositoryManager::get_package", "crates/rez-next-repository/src/simple_repository.rs:RepositoryManager::find_packages"]}
{"id": "C68", "title": "Repeating a repository query gives the same answer", "statement": "With the file system unchanged, find_packages(name) called twice gives the same result.", "quantifier": "all repository contents and query histories", "why_tests_cant": "history dependent", "anchors": ["crates/rez-next-repository/src/simple_repository.rs:SimpleRepository::find_packages", "crates/rez-next-repository/src/simple_repository.rs:scan"]}
{"id": "C69", "title": "Search returns the packages that match", "statement": "A package search returns every family whose name matches the filter, and 'latest only' returns the highest version of each.", "quantifier": "all repositories and filters", "why_tests_cant": "all contents", "anchors": ["crates/rez-next-search/src/searcher.rs:search_async", "crates/rez-next-search/src/filter.rs:matches_name"]}
{"id": "C70", "title": "Requirement and conflict lists behave as insertion-ordered multimaps", "statement": "After any sequence of add/remove, get(name) returns exactly the entries added for the name since its last removal in insertion order, and len counts all of them.", "quantifier": "all operation sequences", "why_tests_cant": "history dependent", "anchors": ["crates/rez-next-solver/src/requirement_list.rs:add", "crates/rez-next-solver/src/dependency_conflicts.rs:add"]}
{"id": "C71", "title": "Text utilities keep their bounds", "statement": "truncate never exceeds the requested length; to_python_identifier always yields a valid identifier; parse_duration inverts the printed form.", "quantifier": "all strings and bounds", "why_tests_cant": "all strings", "anchors": ["crates/rez-next-util/src/string.rs:truncate", "crates/rez-next-util/src/string.rs:to_python_identifier", "crates/rez-next-util/src/time.rs:parse_duration"]}
{"id": "C72", "title": "Release hooks run in the order created and unknown types are reported", "statement": "create_hooks returns one hook per requested type in order, or an error naming a type that is not registered; a later registration of the same type replaces the earlier.", "quantifier": "all registration histories and request lists", "why_tests_cant": "history dependent", "anchors": ["crates/rez-next-release-hook/src/registry.rs:register", "crates/rez-next-release-hook/src/registry.rs:create_hooks"]}
{"id": "C73", "title": "A context that validates satisfies its requirements", "statement": "validate() succeeds only if every stated requirement is met by a package of that name in the context.", "quantifier": "all contexts", "why_tests_cant": "all contexts", "anchors": ["crates/rez-next-context/src/context.rs:validate", "crates/rez-next-context/src/context.rs:satisfies_requirement"]}
{"id": "C74", "title": "Version constraints compare at their own depth", "statement": "A constraint 'name OP V' compares exactly as many leading components of a candidate version as V has: ==1.5 accepts 1.5 and 1.5.2 but neither 1.4 nor 1; ~=P.Y accepts the versions starting with P followed by a component of at least Y.", "quantifier": "all numeric versions", "why_tests_cant": "all versions of all lengths", "anchors": ["crates/rez-next-package/src/requirement/types.rs:VersionConstraint::is_satisfied_by"]}
{"id": "C75", "title": "Architecture conditions are honoured", "statement": "A requirement restricted to an architecture does not apply on another architecture.", "quantifier": "all requirement strings and platforms", "why_tests_cant": "all strings", "anchors": ["crates/rez-next-package/src/requirement/parser.rs:parse_platform_condition", "crates/rez-next-package/src/requirement/types.rs:is_platform_satisfied"]}
{"id": "C76", "title": "Conditions of a requirement do not depend on their order", "statement": "A requirement's platform conditions hold exactly when no != condition names the platform and, if there are == conditions, one of them does; its environment conditions hold exactly when each of them does.", "quantifier": "all requirement strings, platforms and environments", "why_tests_cant": "all lists of conditions", "anchors": ["crates/rez-next-package/src/requirement/types.rs:is_platform_satisfied", "crates/rez-next-package/src/requirement/types.rs:is_env_satisfied"]}
{"id": "C77", "title": "Parsing a package requirement never aborts the process", "statement": "For every string, parsing a package requirement returns a value or an error.", "quantifier": "all strings", "why_tests_cant": "all strings, including non-ASCII ones", "anchors": ["crates/rez-next-package/src/package/requirement.rs:PackageRequirement::parse"]}
{"id": "C78", "title": "Wildcards match by leading components", "statement": "'name==A.B.*' is satisfied exactly by the versions whose dot-separated components start with A, B.", "quantifier": "all names, component lists and versions", "why_tests_cant": "all versions", "anchors": ["crates/rez-next-package/src/requirement/types.rs:VersionConstraint::is_satisfied_by", "crates/rez-next-package/src/requirement/parser.rs:parse_single_constraint"]}
{"id": "C79", "title": "The reported graph depth is the longest dependency chain", "statement": "The depth in the graph statistics is the number of packages on the longest chain of dependencies.", "quantifier": "all graphs", "why_tests_cant": "all graphs and hash iteration orders", "anchors": ["crates/rez-next-solver/src/graph.rs:calculate_node_depth", "crates/rez-next-solver/src/graph.rs:get_stats"]}
{"id": "C80", "title": "A conflict is reported exactly when requirements are incompatible", "statement": "detect_conflicts reports a family exactly when two of its requirements have no version in common.", "quantifier": "all requirement lists", "why_tests_cant": "all ranges", "anchors": ["crates/rez-next-solver/src/graph.rs:detect_conflicts", "crates/rez-next-solver/src/graph.rs:requirements_compatible"]}
{"id": "C81", "title": "An excluded family stays out of the dependency graph", "statement": "After a family is excluded, and until the graph is cleared, no operation brings a package of that family into the graph, and adding one is an error without effect.", "quantifier": "all graphs and operation histories", "why_tests_cant": "all histories", "anchors": ["crates/rez-next-solver/src/graph.rs:add_exclusion", "crates/rez-next-solver/src/graph.rs:add_package"]}
{"id": "C82", "title": "A resolve reports exactly the requirements it could not meet", "statement": "failed_requirements lists exactly the requirements, of the request or of resolved packages, that do not hold among the resolved packages.", "quantifier": "all repositories and requests, strict or not", "why_tests_cant": "all repositories, requests and search histories", "anchors": ["crates/rez-next-solver/src/dependency_resolver.rs:DependencyResolver::resolve", "crates/rez-next-solver/src/resolution_state.rs:ResolutionState"]}
{"id": "C83", "title": "The A* search reports no solution only when there is none", "statement": "If the A* search ends without a goal and without an error, no set of listed packages fulfils the request.", "quantifier": "all repositories, requests and queue orders", "why_tests_cant": "all search histories; needs completeness, not examples", "anchors": ["crates/rez-next-solver/src/astar/astar_search.rs:search", "crates/rez-next-solver/src/astar/search_state.rs:update_hash"]}
{"id": "C84", "title": "The best admissible variant is chosen", "statement": "The variant chosen for a package is one of its variants, conflicts with no resolved package, and no other such variant has more requirements already satisfied by resolved packages; a package with variants is passed over only when none is admissible.", "quantifier": "all packages, variant lists and sets of resolved packages", "why_tests_cant": "all variant lists", "anchors": ["crates/rez-next-solver/src/dependency_resolver.rs:select_variant", "crates/rez-next-solver/src/dependency_resolver.rs:variant_is_compatible"]}
{"id": "C85", "title": "Evictions follow the configured strategy", "statement": "When a put evicts, then with LRU every evicted entry was last used before every entry that stays; with LFU it was found no more often since its put; with FIFO it was put no later.", "quantifier": "all operation histories and hash orders", "why_tests_cant": "history dependent", "anchors": ["crates/rez-next-solver/src/cache.rs:evict_lru", "crates/rez-next-solver/src/cache.rs:evict_lfu", "crates/rez-next-solver/src/cache.rs:evict_fifo"]}
{"id": "C86", "title": "Cache statistics are exact", "statement": "Hits plus misses is the number of lookups, entries is the number of entries, evictions the number of entries evicted.", "quantifier": "all operation histories", "why_tests_cant": "history dependent", "anchors": ["crates/rez-next-solver/src/cache.rs:get_stats", "crates/rez-next-solver/src/cache.rs:get", "crates/rez-next-solver/src/cache.rs:put"]}
{"id": "C87", "title": "A cached value is found until it expires, is replaced, removed or evicted", "statement": "After put(k,v), get(k) returns v as long as the time to live has not passed and k was not put again, removed, cleared or evicted.", "quantifier": "all operation histories, clocks and times to live", "why_tests_cant": "history dependent, and overflow at large times to live", "anchors": ["crates/rez-next-solver/src/cache.rs:is_valid", "crates/rez-next-solver/src/cache.rs:get"]}
{"id": "C88", "title": "The two-level cache describes itself correctly", "statement": "contains_key(k) is true exactly when get(k) would return a value; size() is the number of keys held.", "quantifier": "all cache states", "why_tests_cant": "all states", "anchors": ["crates/rez-next-cache/src/intelligent_manager.rs:contains_key", "crates/rez-next-cache/src/intelligent_manager.rs:size"]}
{"id": "C89", "title": "The repository cache keeps its limit", "statement": "The repository cache never holds more than the configured maximum number of entries.", "quantifier": "all operation histories and limits", "why_tests_cant": "history dependent", "anchors": ["crates/rez-next-repository/src/cache.rs:put", "crates/rez-next-repository/src/cache.rs:CacheConfig"]}
{"id": "C90", "title": "Cleanup removes exactly the expired", "statement": "After cleanup exactly the valid entries remain in the repository cache, and exactly their files remain on disk.", "quantifier": "all histories and clocks, with restarts", "why_tests_cant": "history dependent", "anchors": ["crates/rez-next-repository/src/cache.rs:cleanup", "crates/rez-next-repository/src/cache.rs:load_cache_index"]}
{"id": "C91", "title": "Repository cache statistics are exact", "statement": "Hits plus misses is the number of lookups and entries is the number of entries.", "quantifier": "all operation histories", "why_tests_cant": "history dependent", "anchors": ["crates/rez-next-repository/src/cache.rs:get", "crates/rez-next-repository/src/cache.rs:get_stats"]}
{"id": "C92", "title": "The package cache serves only current packages", "statement": "A package is served only if its source file exists, is unchanged, and the time to live has not passed.", "quantifier": "all cache states, clocks and file changes", "why_tests_cant": "clock and history dependent", "anchors": ["crates/rez-next-package-cache/src/lib.rs:CachedPackage::is_valid", "crates/rez-next-package-cache/src/lib.rs:FileCache::get"]}
{"id": "C93", "title": "Package cache statistics are exact", "statement": "Every lookup is counted once: as a hit if a package was returned, as a miss otherwise.", "quantifier": "all histories", "why_tests_cant": "history dependent", "anchors": ["crates/rez-next-package-cache/src/lib.rs:InMemoryCache::get", "crates/rez-next-package-cache/src/lib.rs:FileCache::get"]}
{"id": "C94", "title": "Different variants never share a cache entry", "statement": "Two handles that differ in name, version, index or attributes are never taken for each other by the payload cache.", "quantifier": "all pairs of handles", "why_tests_cant": "all texts", "anchors": ["crates/rez-next-package/src/package_cache.rs:hashable_repr", "crates/rez-next-package/src/package_cache.rs:VariantHandle"]}
{"id": "C95", "title": "A copy cut short can be made again", "statement": "If a process dies while it copies a variant into the payload cache, later adds, removals or cleaning can bring the variant back into the cache.", "quantifier": "all crash points of add_variant and all later histories", "why_tests_cant": "crash points and unbounded histories", "anchors": ["crates/rez-next-package/src/package_cache.rs:add_variant", "crates/rez-next-package/src/package_cache.rs:remove_variant", "crates/rez-next-package/src/package_cache.rs:get_cached_root", "crates/rez-next-package/src/package_cache.rs:clean"]}
{"id": "C96", "title": "A removed variant is no longer found", "statement": "After remove_variant reports the variant as removed it is not found and its payload is gone.", "quantifier": "all directories and orders of listing", "why_tests_cant": "all states", "anchors": ["crates/rez-next-package/src/package_cache.rs:remove_variant"]}
{"id": "C97", "title": "Looking up a variant changes no answer", "statement": "get_cached_root leaves the status and place of every variant as they were, also if the process dies inside it.", "quantifier": "all directories, handles and crash points", "why_tests_cant": "crash points", "anchors": ["crates/rez-next-package/src/package_cache.rs:get_cached_root", "crates/rez-next-package/src/package_cache.rs:update_access_time"]}
{"id": "C98", "title": "The first applicable orderer is used", "statement": "The orderer used for a family is the first orderer of the configured list that names the family or names no families; without one, packages keep their order.", "quantifier": "all orderer lists and family names", "why_tests_cant": "all lists", "anchors": ["crates/rez-next-package/src/package_order.rs:PackageOrderList", "crates/rez-next-package/src/package_order.rs:get_orderer"]}
{"id": "C99", "title": "A filter rule for one family matches only that family", "statement": "A rule restricted to a package family (a range rule with a family, or any rule given one) matches only packages of that family; a range rule matches exactly the packages whose version is in its range, a timestamp rule exactly those released before (after) its time.", "quantifier": "all rules and packages", "why_tests_cant": "every rule and package", "anchors": ["crates/rez-next-package-filter/src/rule.rs:apply", "crates/rez-next-package/src/filter.rs:matches"]}
{"id": "C100", "title": "Glob rules mean what globs mean", "statement": "A glob rule matches a package exactly when the whole of the chosen field fits the pattern, '*' standing for any text, '?' for any one character and every other character for itself.", "quantifier": "all patterns and texts", "why_tests_cant": "all patterns and texts", "anchors": ["crates/rez-next-package-filter/src/rule.rs:matches_glob"]}
{"id": "C101", "title": "Statements after stop() have no effect", "statement": "Once a package's commands call stop(), no later statement, of this package or of another, changes the generated environment.", "quantifier": "all package lists and command texts", "why_tests_cant": "all texts and package orders", "anchors": ["crates/rez-next-context/src/environment.rs:rex_effects", "crates/rez-next-rex/src/lib.rs:apply"]}
{"id": "C102", "title": "Rex text means its statements", "statement": "Every documented statement, with any names and values, is read as that statement; a text is the sequence of its lines; a text is refused exactly when one of its lines cannot be read.", "quantifier": "all texts", "why_tests_cant": "all texts", "anchors": ["crates/rez-next-rex/src/parser.rs:parse"]}
{"id": "C103", "title": "Variable references expand to their values", "statement": "In the values of statements every reference to a context variable becomes the variable's value and nothing else changes, whatever the order in which the variables are stored.", "quantifier": "all texts, variable maps and hash iteration orders", "why_tests_cant": "all texts and hash orders", "anchors": ["crates/rez-next-rex/src/executor.rs:expand_action_vars"]}
{"id": "C104", "title": "Merging with a base environment keeps what was decided", "statement": "After merging with a base, variables set by statements keep their value, variables unset by statements stay unset, and the others have the base value.", "quantifier": "all environments and bases", "why_tests_cant": "all maps", "anchors": ["crates/rez-next-rex/src/lib.rs:merge_with_base"]}
{"id": "C105", "title": "A package's commands see only its own variables", "statement": "References in a package's commands are expanded with that package's name, version and root, whatever packages the executor ran before.", "quantifier": "all sequences of packages", "why_tests_cant": "history dependent", "anchors": ["crates/rez-next-rex/src/executor.rs:execute_commands"]}
{"id": "C106", "title": "The activation script does not depend on hash order", "statement": "Two environments with the same variables and aliases give the same script, in every shell.", "quantifier": "all environments, shells and hash iteration orders", "why_tests_cant": "hash orders cannot be enumerated by tests", "anchors": ["crates/rez-next-rex/src/shell.rs:generate_shell_script", "crates/rez-next-context/src/environment.rs:generate_shell_script"]}
{"id": "C107", "title": "A saved suite is loaded back, whatever happens while saving", "statement": "Loading a suite that was saved to a path gives a suite with the same contexts, descriptions, aliases, hidden tools and conflict mode; a crash while saving leaves the old or the new suite.", "quantifier": "all suites, all directories, all crash points", "why_tests_cant": "crash points and all suites", "anchors": ["crates/rez-next-suites/src/suite.rs:save", "crates/rez-next-suites/src/suite.rs:load", "crates/rez-next-suites/src/suite_tool.rs:ToolConflictMode"]}
{"id": "C108", "title": "Suites are found by name in search order", "statement": "load_suite(name) gives the suite of that name in the first search path that has one; every listed suite can be loaded under its listed name.", "quantifier": "all search paths and file systems", "why_tests_cant": "all file systems", "anchors": ["crates/rez-next-suites/src/suite_manager.rs:load_suite", "crates/rez-next-suites/src/suite_manager.rs:find_suites", "crates/rez-next-suites/src/suite_manager.rs:list_suite_names"]}
{"id": "C109", "title": "An environment variable sets the option that it names", "statement": "REZ_FOO_BAR=v sets the option foo.bar to v, over all files, whatever other variables are set and in whatever order the environment is iterated; other options keep their value; a locked configuration ignores the environment.", "quantifier": "all environments, iteration orders, configurations", "why_tests_cant": "environment orders and all keys", "anchors": ["crates/rez-next-config/src/lib.rs:apply_env_overrides", "crates/rez-next-config/src/lib.rs:set_nested_value", "crates/rez-next-config/src/lib.rs:load"]}
{"id": "C110", "title": "The command line configuration is searched in the documented order", "statement": "The file named by REZ_CONFIG_FILE and the user's file win over files for all users; the environment variables for the package paths win over every file; unreadable files are skipped.", "quantifier": "all environments and files", "why_tests_cant": "all environments", "anchors": ["crates/rez-next-common/src/config.rs:load", "crates/rez-next-common/src/config.rs:get_search_paths", "crates/rez-next-common/src/config.rs:split_env_paths"]}
{"id": "C111", "title": "A repository answers from the files as they are", "statement": "find_packages and get_package answer from the package files on disk at the time of the call, however the files changed since earlier calls.", "quantifier": "all histories of calls and changes on disk", "why_tests_cant": "histories interleaved with changes", "anchors": ["crates/rez-next-repository/src/simple_repository.rs:SimpleRepository::find_packages", "crates/rez-next-repository/src/simple_repository.rs:scan"]}
{"id": "C112", "title": "The reverse dependency tree is the dependency graph read backwards", "statement": "The layers of get_reverse_dependency_tree are the packages at distance 0, 1, 2, ... from the package along 'is required by', each package in exactly one layer; the search ends; the graph holds every edge between them; and a package is a direct dependent exactly when it requires the package.", "quantifier": "all package collections, depths and search paths, cycles included", "why_tests_cant": "unbounded graphs with cycles", "anchors": ["crates/rez-next-repository/src/package_search.rs:get_reverse_dependency_tree", "crates/rez-next-repository/src/package_search.rs:find_dependents", "crates/rez-next-repository/src/package_search.rs:package_depends_on"]}
{"id": "C113", "title": "get_plugins lists exactly the plugins", "statement": "get_plugins(name) lists, once each and in order, exactly the families with a package that names it in plugin_for.", "quantifier": "all repositories", "why_tests_cant": "all contents", "anchors": ["crates/rez-next-repository/src/package_search.rs:get_plugins", "crates/rez-next-repository/src/package_search.rs:is_plugin_for"]}
{"id": "C114", "title": "Every process started in a context sees the same variables", "statement": "A command, a background command, a batch of commands, a script, an interactive shell and a spawned shell of a context see the additional variables, over the variables of the context, over (only if inheritance is asked for) the variables of the calling process, whatever the order of the hash maps.", "quantifier": "all contexts, configurations, parent environments and hash orders", "why_tests_cant": "hash orders and all environments", "anchors": ["crates/rez-next-context/src/execution.rs:execute", "crates/rez-next-context/src/execution.rs:execute_script", "crates/rez-next-context/src/execution.rs:create_interactive_shell", "crates/rez-next-context/src/shell.rs:spawn"]}
{"id": "C115", "title": "An exported environment file gives back the environment", "statement": "Reading an exported env file line by line gives exactly the variables of the context.", "quantifier": "all contexts and hash orders", "why_tests_cant": "all texts", "anchors": ["crates/rez-next-context/src/serialization.rs:export_to_env_file"]}
{"id": "C116", "title": "A saved context is loaded back", "statement": "A context saved to a path without an error is loaded back from it, in both formats; if the process dies while saving, the old or the new context is there; the default file name can be saved to and loaded from; find_context_files lists exactly the context files, in order.", "quantifier": "all contexts, paths, formats and crash points", "why_tests_cant": "crash points and all paths", "anchors": ["crates/rez-next-context/src/serialization.rs:save_to_file", "crates/rez-next-context/src/serialization.rs:load_from_file", "crates/rez-next-context/src/serialization.rs:get_default_filename", "crates/rez-next-context/src/serialization.rs:find_context_files"]}
{"id": "C117", "title": "Export lines of a package mean what they say", "statement": "A line export NAME=\"text\" in a package's commands sets NAME to the text with {root}, {version}, {variant_index} and ${VAR} replaced by their values, references to unset variables by nothing, whatever the order in which variables are stored; nothing else changes.", "quantifier": "all environments, lines, packages and hash orders", "why_tests_cant": "hash orders and all texts", "anchors": ["crates/rez-next-context/src/resolved_context.rs:apply_export_command", "crates/rez-next-context/src/resolved_context.rs:expand_variables"]}
{"id": "C118", "title": "The tools of a context are those of its packages", "statement": "The tools of a context are exactly those of its packages, each once and in order; the path of a tool is that of the last package that has it.", "quantifier": "all contexts", "why_tests_cant": "all package lists", "anchors": ["crates/rez-next-context/src/context.rs:get_all_tools", "crates/rez-next-context/src/resolved_context.rs:get_tools"]}
{"id": "C119", "title": "A copied package is the package", "statement": "A copy that succeeds leaves at the destination exactly what is at the source and reports the number of its files and bytes; nothing else changes but missing directories above the destination; however it ends and wherever the process dies, the source and everything apart from the destination stay as they were.", "quantifier": "all file systems, search paths, names, versions, listing orders and crash points", "why_tests_cant": "crash points and all file systems", "anchors": ["crates/rez-next-package/src/package_copy.rs:copy_package", "crates/rez-next-package/src/package_copy.rs:copy_dir_recursive", "crates/rez-next-package/src/package_copy.rs:find_package_dir"]}
{"id": "C120", "title": "A move never loses the package", "statement": "Wherever a move is stopped, the source is still as it was or the destination is complete; a move that succeeds leaves the package at the destination only.", "quantifier": "all file systems, search paths, destinations and crash points", "why_tests_cant": "crash points and all file systems", "anchors": ["crates/rez-next-package/src/package_move.rs:move_package"]}
{"id": "C121", "title": "Removing a version removes that version only", "statement": "Removing a version (family) removes its directory from every search path, and nothing else but family directories left empty; what is reported is what was there; the preview is what is then removed.", "quantifier": "all file systems, search paths, names and versions", "why_tests_cant": "all file systems and names", "anchors": ["crates/rez-next-package/src/package_remove.rs:remove_package_version", "crates/rez-next-package/src/package_remove.rs:remove_package_family", "crates/rez-next-package/src/package_remove.rs:preview_removal"]}
{"id": "C122", "title": "cp and mv transfer the package that was named", "statement": "name-version designates that package and version, name alone the latest version; a move interrupted anywhere leaves the source intact or the destination complete; one that succeeds leaves the package at the destination and changes nothing else; a dry run changes nothing.", "quantifier": "all package names, versions, package lists, file systems, crash points", "why_tests_cant": "crash points, all texts and all file systems", "anchors": ["src/cli/commands/cp.rs:find_source_package_with_path", "src/cli/commands/mv.rs:move_package_directory", "src/cli/commands/mv.rs:parse_package_spec"]}
{"id": "C123", "title": "rm removes what was asked for only", "statement": "rm removes only directories of packages that were found, have the version asked for and were confirmed, and removes all of those; with --ignored-since only packages whose file is older than the time; a dry run removes nothing.", "quantifier": "all file systems, search paths, package lists, file times", "why_tests_cant": "all file systems and times", "anchors": ["src/cli/commands/rm.rs:remove_package", "src/cli/commands/rm.rs:remove_single_package", "src/cli/commands/rm.rs:remove_ignored_since"]}
{"id": "C124", "title": "Relative times count back from now", "statement": "A number followed by d, w, m or y is that many days, weeks, months or years before now, a date is that date; every other text is an error, never an abort.", "quantifier": "all texts and clocks", "why_tests_cant": "all texts, including non-ASCII and large numbers", "anchors": ["src/cli/utils.rs:parse_relative_time", "src/cli/utils.rs:parse_time_spec"]}
{"id": "C125", "title": "Wildcards in requirements are expanded to the latest version", "statement": "expand_requirement replaces wildcards by the components of the latest package version that fits; a requirement without wildcards is unchanged; no text aborts the process.", "quantifier": "all requirements and query results", "why_tests_cant": "all texts", "anchors": ["crates/rez-next-package/src/package_py_utils.rs:expand_requirement", "crates/rez-next-package/src/package_py_utils.rs:replace_wildcards"]}
{"id": "C126", "title": "Ignoring a version hides it, unignoring shows it again", "statement": "After any sequence of ignore and unignore calls on a repository, a version is listed exactly if its directory is there with a name that is listed and the last of these calls on it was not ignore; the payload and other versions are never changed; the results say whether the version was there and whether it changed state.", "quantifier": "all repositories, names, versions, listing orders and histories of calls", "why_tests_cant": "histories and all file systems", "anchors": ["crates/rez-next-repository/src/package_repository/filesystem.rs:ignore_package", "crates/rez-next-repository/src/package_repository/filesystem.rs:unignore_package", "crates/rez-next-repository/src/package_repository/filesystem.rs:iter_packages"]}
{"id": "C127", "title": "Removing a version is safe at every crash point", "statement": "Wherever the removal of a version is stopped, the version is whole or is not listed; nothing else changes; a removal that ends leaves neither version nor marker; a stopped removal can be repeated.", "quantifier": "all repositories, names, versions, listing orders and crash points", "why_tests_cant": "crash points and all file systems", "anchors": ["crates/rez-next-repository/src/package_repository/filesystem.rs:remove_package"]}
{"id": "C128", "title": "Removing what was ignored long ago touches nothing else", "statement": "remove_ignored_since(days) removes exactly the versions ignored at least that many days ago, and reports their number; wherever it stops or fails nothing else is changed; a dry run changes nothing and announces what would be done.", "quantifier": "all repositories, clocks, file times, ages, listing orders and crash points", "why_tests_cant": "crash points, times and all file systems", "anchors": ["crates/rez-next-repository/src/package_repository/filesystem.rs:remove_ignored_since"]}
{"id": "C129", "title": "Operations stay inside the repository", "statement": "On a read-only repository every operation fails and changes nothing; whatever the name and the version, no operation changes anything outside the repository; a family is removed without force only if it has no versions.", "quantifier": "all repositories, names, versions and listing orders", "why_tests_cant": "all texts, including .. and absolute paths", "anchors": ["crates/rez-next-repository/src/package_repository/filesystem.rs:validate_component", "crates/rez-next-repository/src/package_repository/filesystem.rs:ensure_writable", "crates/rez-next-repository/src/package_repository/filesystem.rs:remove_package_family"]}
{"id": "C130", "title": "A lookup finds the package that was asked for", "statement": "get_package(name, version) gives the listed package with that version, get_package(name) the latest; a payload path is always inside the repository.", "quantifier": "all repositories, names, versions and listing orders", "why_tests_cant": "listing orders and all texts", "anchors": ["crates/rez-next-repository/src/package_repository/mod.rs:get_package", "crates/rez-next-repository/src/package_repository/filesystem.rs:get_package_payload_path", "crates/rez-next-repository/src/package_repository/filesystem.rs:get_package_family"]}
{"id": "C131", "title": "A scanned repository answers from the package files on disk", "statement": "After initialize or refresh, get_package, package_exists, get_package_versions, get_package_variants, get_package_names and get_stats describe exactly the package files that could be loaded, whatever was scanned before; without a version the highest is given; versions come highest first.", "quantifier": "all directory contents, earlier states, listing orders, hash orders and queries", "why_tests_cant": "all directories and iteration orders", "anchors": ["crates/rez-next-repository/src/filesystem.rs:initialize", "crates/rez-next-repository/src/filesystem.rs:scan_packages", "crates/rez-next-repository/src/filesystem.rs:get_package"]}
{"id": "C132", "title": "A search finds the packages that fit and no others", "statement": "find_packages gives each scanned package that fits the name pattern, the version, the pre-release filter and the requirements exactly once; a limit gives at most so many of them.", "quantifier": "all directory contents, hash orders and search criteria", "why_tests_cant": "all criteria and iteration orders", "anchors": ["crates/rez-next-repository/src/filesystem.rs:find_packages", "crates/rez-next-repository/src/filesystem.rs:matches_pattern"]}
{"id": "C133", "title": "Removing duplicates keeps one package for each name and version", "statement": "deduplicate_packages gives exactly one package of each name and version of its input, none else, names in order and the versions of a name highest first.", "quantifier": "all lists of packages", "why_tests_cant": "all lists, names with dashes and spellings of versions", "anchors": ["crates/rez-next-repository/src/repository.rs:deduplicate_packages"]}
{"id": "C134", "title": "A saved package file loads back as the same package", "statement": "For every package and every format, loading the file or the text that PackageSerializer saved gives a package with the same fields, and the default file name of a format is read in that format.", "quantifier": "all packages, formats, options and directories", "why_tests_cant": "round trips must hold for all texts and all combinations of fields", "anchors": ["crates/rez-next-package/src/serialization/load.rs:load_from_file, load_from_string, load_from_xml", "crates/rez-next-package/src/serialization/save.rs:save_to_file_with_options, save_to_string, save_to_xml", "crates/rez-next-package/src/serialization/types.rs:PackageFormat", "crates/rez-next-package/src/package/serialize.rs:Serialize, Deserialize"]}
{"id": "C135", "title": "Written Python says what the package is", "statement": "The text that save_to_python and to_package_py write is a Python program that assigns to name, version, description, the lists, variants and functions exactly what the package has.", "quantifier": "all packages", "why_tests_cant": "all texts, including quotes, backslashes and line breaks, and all fields", "anchors": ["crates/rez-next-package/src/serialization/save.rs:save_to_python_with_options", "crates/rez-next-package/src/package/methods.rs:to_package_py"]}
{"id": "C136", "title": "Field filters keep and drop exactly the listed fields", "statement": "With exclude_fields a saved package has all fields but those listed, and with include_only it has the name and only those listed, in every format.", "quantifier": "all packages, lists of fields and formats", "why_tests_cant": "all lists, orders, repetitions and combinations", "anchors": ["crates/rez-next-package/src/serialization/save.rs:apply_field_filters, save_to_file_with_options"]}
{"id": "C137", "title": "A package.py file is read as Python runs it", "statement": "Loading a package.py file gives the package that the variables of the file declare once Python has run it; a file on which Python raises an exception, or which declares no acceptable package, is refused, and no file makes the program panic.", "quantifier": "all package.py files and machines", "why_tests_cant": "all expressions, statements, orders of assignments and conditions", "anchors": ["crates/rez-next-package/src/python_ast_parser/mod.rs:parse_package_py, process_statement, build_package", "crates/rez-next-package/src/python_ast_parser/eval.rs:evaluate_expression", "crates/rez-next-package/src/python_ast_parser/extract.rs:extract_string_value, extract_string_list"]}
{"id": "C138", "title": "Commands that are kept do what the command function does", "statement": "The text that is kept for commands, pre_commands, post_commands or pre_test_commands of a package.py file is read by Rex as the very actions that the Python function takes when it is called after the file has been run.", "quantifier": "all package.py files and command functions", "why_tests_cant": "all function bodies, values, conditions and later assignments", "anchors": ["crates/rez-next-package/src/python_ast_parser/commands.rs:process_command_function_body, extract_command_from_statement", "crates/rez-next-rex/src/parser.rs:parse"]}
{"id": "C139", "title": "A package saved as package.py loads back", "statement": "A package that is saved as a Python file, or exported as package.py, is loaded again with the same fields.", "quantifier": "all packages and options", "why_tests_cant": "all texts in all fields", "anchors": ["crates/rez-next-package/src/serialization/save.rs:save_to_python", "crates/rez-next-package/src/package/methods.rs:to_package_py", "crates/rez-next-package/src/python_ast_parser/mod.rs:parse_package_py"]}
{"id": "C140", "title": "Builds go to directories of their own", "statement": "A build with an install path installs in <path>/<name>/<version>; builds that install in one place are of the same version of the same package; different variants of a package are built and installed in different directories; building goes on outside of what is installed; a build of a package with variants starts only for a chosen variant.", "quantifier": "all machines, configurations, requests and variants", "why_tests_cant": "all names, versions, paths and variant requirements", "anchors": ["crates/rez-next-build/src/environment.rs:BuildEnvironment::with_options", "crates/rez-next-build/src/environment.rs:with_install_path", "crates/rez-next-build/src/builder.rs:start_build_with_config"]}
{"id": "C141", "title": "The variables of a build", "statement": "Each variable of a build has the value of the first place that sets it: the variant, the options of the request, the configuration, the source, the resolved context, the standard; a variable that the request sets has that value, and the directories that the build is told are those that it has.", "quantifier": "all requests, configurations, contexts and variables", "why_tests_cant": "all sets of variables in all places", "anchors": ["crates/rez-next-build/src/environment.rs:get_env_vars", "crates/rez-next-build/src/environment.rs:setup_build_variables", "crates/rez-next-build/src/builder.rs:start_single_build"]}
{"id": "C142", "title": "A build stops at the first failing step", "statement": "A build succeeds exactly if its eight steps succeed one after the other; otherwise it stops at the first that fails, and the result says so with its errors. The reported events are the start, the lines and the end of each step that ran and the end of the build; a build that fails leaves nothing installed.", "quantifier": "all build systems and worlds: what each step does and gives", "why_tests_cant": "all outcomes of all steps", "anchors": ["crates/rez-next-build/src/process.rs:execute_build_steps", "crates/rez-next-build/src/process.rs:wait"]}
{"id": "C143", "title": "Package tests of a build", "statement": "With tests skipped nothing about tests plays a part; otherwise the package tests pass exactly if there are none or they can be set up and pass one after the other in the order of their names, in whatever order they were declared.", "quantifier": "all build systems, tests, shells and worlds", "why_tests_cant": "all tables of tests in all iteration orders", "anchors": ["crates/rez-next-build/src/process.rs:execute_step", "crates/rez-next-build/src/process.rs:run_package_tests"]}
{"id": "C144", "title": "The limit on concurrent builds", "statement": "Never are more builds active than the limit, and never do more builds run than the limit.", "quantifier": "all schedules of starting, stepping, waiting, cancelling, dropping and dying builds", "why_tests_cant": "all interleavings of unboundedly many builds", "anchors": ["crates/rez-next-build/src/builder.rs:start_single_build", "crates/rez-next-build/src/builder.rs:cancel_build"]}
{"id": "C145", "title": "The numbers of the build manager", "statement": "The number of running builds is that of the active ones; every build that was started is counted once, as running, successful or failed; the successful ones are those that were waited for and succeeded; no call panics.", "quantifier": "all schedules", "why_tests_cant": "all interleavings", "anchors": ["crates/rez-next-build/src/builder.rs:wait_for_build", "crates/rez-next-build/src/builder.rs:cancel_build", "crates/rez-next-build/src/builder.rs:reset_stats"]}
{"id": "C146", "title": "What waiting for a build says", "statement": "Of each build a wait returns at most once; success means that all its steps ran in order and succeeded, failure that they did up to one that failed, the last that ran; a build that is cancelled does nothing more; a wait for a build returns once its steps have had their turns.", "quantifier": "all schedules of all builds", "why_tests_cant": "all interleavings, including panics of tasks", "anchors": ["crates/rez-next-build/src/builder.rs:wait_for_build", "crates/rez-next-build/src/process.rs:start", "crates/rez-next-build/src/process.rs:cancel"]}
{"id": "C147", "title": "Installing a package by copying it", "statement": "A package without a build system is installed by copying: every file and directory of the source whose first name is not one of those to leave out (version control, build output, caches) is in the directory to install in as it is in the source; nothing else changes; the copying ends, and succeeds if nothing is in the way; stopped anywhere, it has touched nothing outside of the directory to install in.", "quantifier": "all file systems, sources, install directories, orders of listing and points of a crash", "why_tests_cant": "all trees of any depth, every crash point; the copying may see its own output", "anchors": ["crates/rez-next-build/src/systems/custom.rs:copy_package_files", "crates/rez-next-build/src/systems/custom.rs:copy_dir_recursive", "crates/rez-next-build/src/systems/custom.rs:should_skip_file"]}
{"id": "C148", "title": "Which system builds a package", "statement": "A package is built by its build command; without one by the system it names, a name that is no system being a script of the package; without that by the system of the first project file that is there, in a fixed order; and else by copying its files.  Every listed system name names that system.", "quantifier": "all packages and all sets of files in the source", "why_tests_cant": "all combinations of commands, names and files", "anchors": ["crates/rez-next-build/src/systems/mod.rs:detect", "crates/rez-next-build/src/systems/mod.rs:detect_with_package", "crates/rez-next-build/src/systems/mod.rs:get_buildsys_types"]}
{"id": "C149", "title": "The programs of a build", "statement": "A build that succeeds has run the programs of its system, each in its directory and in turn, and all of them ended with code 0; after a program that fails nothing is started.", "quantifier": "all systems, packages, options and machines", "why_tests_cant": "all behaviours of the programs that run", "anchors": ["crates/rez-next-build/src/systems/mod.rs:configure", "crates/rez-next-build/src/systems/cmd_builder.rs:run_cmd", "crates/rez-next-build/src/systems/custom.rs:install", "crates/rez-next-build/src/systems/python.rs:test", "crates/rez-next-build/src/process.rs:execute_build_steps"]}
{"id": "C150", "title": "Directories reach the programs", "statement": "Source, build and install directories and extra arguments reach the programs as whole words, whatever the directories are called.", "quantifier": "all directories and arguments", "why_tests_cant": "all texts", "anchors": ["crates/rez-next-build/src/systems/cmake.rs", "crates/rez-next-build/src/systems/make.rs", "crates/rez-next-build/src/systems/cargo.rs", "crates/rez-next-build/src/systems/python.rs", "crates/rez-next-build/src/systems/custom.rs:run_script"]}
{"id": "C151", "title": "Placeholders of a build command", "statement": "Each placeholder of a build command is replaced by its value once, wherever it is, and everything else of the command stays.", "quantifier": "all commands and values", "why_tests_cant": "all texts", "anchors": ["crates/rez-next-build/src/systems/custom.rs:expand_build_command"]}
{"id": "C152", "title": "Sources given to build", "statement": "The text given as a source is taken for the repository, download or local directory it names, with its branch, tag or commit; the command line overrides the reference; git fetches that reference.", "quantifier": "all texts", "why_tests_cant": "all texts", "anchors": ["crates/rez-next-build/src/sources.rs:SourceManager", "crates/rez-next-build/src/sources.rs:parse_source", "src/cli/commands/build.rs"]}
{"id": "C153", "title": "Downloads stay in their directory", "statement": "A downloaded source is written below the directory for temporary files, whatever the server answers.", "quantifier": "all answers of servers", "why_tests_cant": "the answers of a server cannot be listed", "anchors": ["crates/rez-next-build/src/sources.rs:HttpSource"]}
{"id": "C154", "title": "Building from the command line", "statement": "A package or variant whose requirements are not met is not built; success means that every requested variant was built; every option has an effect.", "quantifier": "all packages, requests, options and results of builds", "why_tests_cant": "all combinations of options and results", "anchors": ["src/cli/commands/build.rs"]}
{"id": "C155", "title": "Binary archives", "statement": "An archive is only installed if it is the one asked for, has the digest given and can be read; what is installed are its files, exactly; a crash only concerns the temporary and the install directory.", "quantifier": "all archives, file systems, variables, listing orders and crash points", "why_tests_cant": "all archives, all trees and every crash point", "anchors": ["crates/rez-next-build/src/systems/binary_archive.rs:BinaryArchiveBuildSystem"]}
{"id": "C156", "title": "Which variants are released", "statement": "A release builds the variants that are asked for, each once and in the order asked for: all variants of the package, or those whose numbers are given between commas; a choice without numbers, with anything else, or with a variant that the package has not, is refused before anything is built.", "quantifier": "all packages and texts of a choice", "why_tests_cant": "all texts", "anchors": ["src/cli/commands/release.rs:release_variant_indices", "src/cli/commands/release.rs:execute"]}
{"id": "C157", "title": "A release is checked, built, tagged and pushed in that order", "statement": "The release command builds nothing before its checks passed, tags after every chosen variant is built, and pushes the tag last; if it fails, nothing is pushed and a tag it made is removed again; a dry run changes nothing.", "quantifier": "all packages, options and machines, whatever git and the build answer", "why_tests_cant": "all answers of git and builds, and crashes", "anchors": ["src/cli/commands/release.rs:execute"]}
{"id": "C158", "title": "What a programmatic release does", "statement": "A release through the release manager looks at the repository, builds, tests, tags, makes the changelog, records the revision and installs the definition, in that order and nothing else; success means that each needed step worked; a package without name or version is not touched; a dry run only looks.", "quantifier": "all packages, settings, modes and machines", "why_tests_cant": "all answers of the repository, tests and disk", "anchors": ["crates/rez-next-build/src/release.rs:ReleaseManager::release", "crates/rez-next-build/src/release.rs:validate_vcs", "crates/rez-next-build/src/release.rs:create_vcs_tag", "crates/rez-next-build/src/release.rs:run_tests"]}
{"id": "C159", "title": "Where a release is installed", "statement": "A release writes below base/name/version only, where the base is the release directory, or the local one for local releases, with the home directory put in for `~`; the result names that directory; nothing released before is overwritten and each variant has its own directory.", "quantifier": "all settings, packages and modes", "why_tests_cant": "all texts of paths and all machines", "anchors": ["crates/rez-next-build/src/release.rs:get_install_path", "crates/rez-next-build/src/release.rs:expand_home", "crates/rez-next-build/src/release.rs:build_package", "crates/rez-next-build/src/release.rs:install_package_definition"]}
{"id": "C160", "title": "Tags and branches of repositories", "statement": "A tag is found exactly if there is a tag of that name; a new tag names the commit that is released and never moves; a tag is looked up where it is made; release branches are the ones named so.", "quantifier": "all repositories, histories, tags and branches", "why_tests_cant": "all histories and all printed texts", "anchors": ["crates/rez-next-build/src/vcs/git.rs:tag_exists", "crates/rez-next-build/src/vcs/git.rs:create_tag", "crates/rez-next-build/src/vcs/hg.rs:tag_exists", "crates/rez-next-build/src/vcs/svn.rs:tag_exists", "crates/rez-next-build/src/vcs/svn.rs:create_tag", "crates/rez-next-build/src/vcs/mod.rs:is_releasable_branch"]}
{"id": "C161", "title": "What is told of a revision", "statement": "Address, branch, revision, author, message and time of a revision are those that the version control program printed, and no printed text makes reading fail.", "quantifier": "all texts that the programs print", "why_tests_cant": "all texts", "anchors": ["crates/rez-next-build/src/vcs/hg.rs:parse_hg_timestamp", "crates/rez-next-build/src/vcs/hg.rs:get_metadata", "crates/rez-next-build/src/vcs/svn.rs:get_svn_info", "crates/rez-next-build/src/vcs/svn.rs:get_metadata"]}
{"id": "C162", "title": "Reverse dependencies", "statement": "depends lists, for every distance up to the limit, exactly the packages that need the given one through that many steps, each once and in order; it ends on cycles; its graph shows the dependencies found; and it finds the packages of the repositories.", "quantifier": "all packages, requirements, cycles and limits", "why_tests_cant": "all dependency graphs", "anchors": ["src/cli/commands/depends.rs:build_reverse_dependency_tree", "src/cli/commands/depends.rs:find_package_dependents", "src/cli/commands/depends.rs:print_dependency_tree", "src/cli/commands/depends.rs:generate_dot_graph"]}
{"id": "C163", "title": "Arguments of commands run in an environment", "statement": "The arguments after -- reach the command as they were given, whatever characters they have; an alias gets them at its end, or where it says.", "quantifier": "all arguments, aliases and shells", "why_tests_cant": "all texts", "anchors": ["src/cli/commands/env.rs:quote_shell_argument", "src/cli/commands/env.rs:expand_alias", "src/cli/commands/env.rs:execute_extra_args_in_context"]}
{"id": "C164", "title": "Variables of programs run in an environment", "statement": "A program started in an environment sees the variables that the packages set, those that describe the environment, the directory of rez on its search path, and otherwise those of the caller; a variable that a package unset is not there.", "quantifier": "all environments, callers, shells and variables", "why_tests_cant": "all environments", "anchors": ["src/cli/commands/env.rs:context_environment", "src/cli/commands/env.rs:prepend_executable_dir", "src/cli/commands/env.rs:execute_shell_command_in_environment", "src/cli/commands/env.rs:spawn_shell_in_context"]}
{"id": "C165", "title": "What env does and leaves", "statement": "A command given twice is refused; printing options start and write nothing; otherwise one program is started, and the exit code is its own; temporary files are removed however the run ends.", "quantifier": "all arguments, machines and failures", "why_tests_cant": "all failures at all places", "anchors": ["src/cli/commands/env.rs:execute_with_extra_args", "src/cli/commands/env.rs:execute_in_context", "src/cli/commands/env.rs:remove_temporary_context"]}
{"id": "C166", "title": "The printed environment", "statement": "The lines that env prints, read by a shell, set exactly the variables of the environment.", "quantifier": "all environments", "why_tests_cant": "all values", "anchors": ["src/cli/commands/env.rs:print_environment"]}
{"id": "C167", "title": "Which tests are run", "statement": "test runs all tests of a package, or exactly those whose names match one of the given names and patterns, where * stands for any text; each once, by pattern and then by name.", "quantifier": "all packages, tests and patterns", "why_tests_cant": "all names and patterns", "anchors": ["src/cli/commands/test.rs:find_requested_test_names", "crates/rez-next-package/src/package/test_runner.rs:find_requested_test_names"]}
{"id": "C168", "title": "Results of tests", "statement": "Every test is run as a shell command in the environment of the package, its result is what that command ended with, the exit code is 0 exactly if no test failed, the summary counts every test once and says that all passed only if all did; --stop-on-fail stops at the first failure; a test that does not exist is an error.", "quantifier": "all packages, machines and results of commands", "why_tests_cant": "all results of programs in any order", "anchors": ["src/cli/commands/test.rs:run_test", "src/cli/commands/test.rs:execute_test_command", "src/cli/commands/test.rs:print_summary", "src/cli/commands/test.rs:execute"]}
{"id": "C169", "title": "The package and the environment of tests", "statement": "Tests are those of the package that was named, in its latest or the named version, with the packages that it requires in its first variant that can be resolved; in place only if the package is in the current environment.", "quantifier": "all search paths, packages, variants and environments", "why_tests_cant": "all repositories and environments", "anchors": ["src/cli/commands/test.rs:load_test_definitions", "src/cli/commands/test.rs:extract_tests_from_package", "src/cli/commands/test.rs:test_requirement_sets", "src/cli/commands/test.rs:apply_pre_test_commands"]}
{"id": "C170", "title": "Test commands in the library", "statement": "The library runs a test command as the shell would.", "quantifier": "all commands", "why_tests_cant": "all texts", "anchors": ["crates/rez-next-package/src/package/test_runner.rs:extract_tests_from_package", "crates/rez-next-package/src/package/test_runner.rs:execute_test_command"]}
{"id": "C171", "title": "What a bundle is asked for", "statement": "The arguments of `bundle` are requests; the directory is the one of the option, else the last argument if it is a path. Without a request, or with one that is no request, nothing is changed. Different requests get different bundles.", "quantifier": "all arguments", "why_tests_cant": "all texts and lists of arguments", "anchors": ["src/cli/commands/bundle.rs:execute", "src/cli/commands/bundle.rs:looks_like_path"]}
{"id": "C172", "title": "Packages in a bundle", "statement": "A bundle that succeeds holds every package of its context exactly as the repository does and nothing else; making it changes nothing outside its directory, wherever it is stopped.", "quantifier": "all file systems, contexts, orders of listings, and points where it is stopped", "why_tests_cant": "all directory trees and crash points", "anchors": ["src/cli/commands/bundle.rs:execute", "src/cli/commands/bundle.rs:copy_dir_recursive", "src/cli/commands/bundle.rs:find_package_dir"]}
{"id": "C173", "title": "The activation script of a bundle", "statement": "Reading the script in a shell sets the root of every package to its directory in the bundle and puts the `bin` directories of the packages before the search path, and leaves the rest alone; wherever the bundle is.", "quantifier": "all bundles, shells and their variables", "why_tests_cant": "all states of a shell", "anchors": ["src/cli/commands/bundle.rs:generate_activation_scripts"]}
{"id": "C174", "title": "The descriptions of a bundle", "statement": "A bundle that is made has its description in JSON and YAML, its context and three scripts; the descriptions have the requests, the name and the packages with their versions, and a reader finds these again.", "quantifier": "all contexts and requests", "why_tests_cant": "all contents", "anchors": ["src/cli/commands/bundle.rs:execute"]}
{"id": "C175", "title": "Which packages are compared", "statement": "`diff name-version` compares that package; a name alone is its latest version; without a second package it is compared with the version before it.", "quantifier": "all repositories, names and versions", "why_tests_cant": "all repositories", "anchors": ["src/cli/commands/diff.rs:find_packages_to_diff", "src/cli/commands/diff.rs:parse_package_spec", "src/cli/commands/diff.rs:find_package", "src/cli/commands/diff.rs:find_previous_version"]}
{"id": "C176", "title": "The differences of two packages", "statement": "The differences that are told are those of the packages, all of them, and none are told exactly if the packages are the same; the JSON output is JSON and tells the same.", "quantifier": "all pairs of packages", "why_tests_cant": "all contents and orders of iteration", "anchors": ["src/cli/commands/diff.rs:compare_packages", "src/cli/commands/diff.rs:output_text_diff", "src/cli/commands/diff.rs:output_json_diff"]}
{"id": "C177", "title": "The status of packages", "statement": "`status` tells all versions of a package, the latest first, and the numbers of packages, families and variants in the repositories.", "quantifier": "all repositories", "why_tests_cant": "all repositories", "anchors": ["src/cli/commands/status.rs:show_package_status", "src/cli/commands/status.rs:show_general_status", "src/cli/commands/status.rs:analyze_repository_status"]}
{"id": "C178", "title": "The version of a tool is read from what it prints", "statement": "Binding a tool takes the version from what the tool prints with the first version flag that prints anything: numbers with points between them that stand alone, the first such, and otherwise the first word with a digit, trimmed; a version is found exactly if there is a digit, and it is always part of the output.", "quantifier": "all outputs of all tools", "why_tests_cant": "every output of every tool", "anchors": ["crates/rez-next-bind/src/detect.rs:extract_version_from_output", "crates/rez-next-bind/src/detect.rs:detect_version"]}
{"id": "C179", "title": "Binding a tool writes its package and nothing else", "statement": "A bind that succeeds has written the package file of the tool under its name and version in the package directory and changed nothing else but making missing directories, even if it is stopped anywhere; without a version, or if the version exists and is not to be overwritten, nothing is written; otherwise it succeeds if nothing is in the way; the bound package exists and is named as the tool that was asked for.", "quantifier": "all tools, options, machines and stops", "why_tests_cant": "all disks, tools and crash points", "anchors": ["crates/rez-next-bind/src/binder.rs:PackageBinder::bind", "crates/rez-next-bind/src/builtin_binders.rs:BuiltinBinder::bind"]}
{"id": "C180", "title": "The files of bound tools say what they should", "statement": "The package file of a bound tool, of the library and of the command, is a Python program with the name, version, description, tools, requirements and extra fields of the tool, and commands that put its directory in the search path.", "quantifier": "all names, versions, paths and extra fields", "why_tests_cant": "all texts", "anchors": ["crates/rez-next-bind/src/binder.rs:generate_package_py", "src/cli/commands/bind/package_gen.rs:generate_package_py", "src/cli/commands/bind/package_gen.rs:get_package_commands"]}
{"id": "C181", "title": "The bind command finds the version of a tool", "statement": "The bind command takes for the version of a tool the first run of digits and separators in the first line of its output that names the tool; the version asked for is honoured, and tools that are not there are not bound.", "quantifier": "all outputs, tools and requests", "why_tests_cant": "every output of every tool", "anchors": ["src/cli/commands/bind/utils.rs:parse_version_from_string", "src/cli/commands/bind/utils.rs:extract_version_from_output", "src/cli/commands/bind/detect.rs:detect_system_tool"]}
{"id": "C182", "title": "The bind command binds what it was asked for", "statement": "The bind command writes the package file of the tool in the directory asked for and changes nothing else; it succeeds if nothing is in the way; the quick start binds all seven packages; existing packages are not overwritten, dependencies are bound too, and failures are told.", "quantifier": "all tools, options and machines", "why_tests_cant": "all disks and tools", "anchors": ["src/cli/commands/bind/mod.rs:execute", "src/cli/commands/bind/mod.rs:bind_single_package", "src/cli/commands/bind/mod.rs:execute_quickstart"]}
{"id": "C183", "title": "The list of bound packages is complete", "statement": "Listing a package directory gives every family with a version that has a package file, with exactly these versions, each once, families and versions in order of their texts; a package that has just been bound is listed.", "quantifier": "all disks", "why_tests_cant": "all disks", "anchors": ["crates/rez-next-bind/src/binder.rs:list_bound_packages_in"]}
{"id": "C184", "title": "The name in a pip specification", "statement": "The name that is looked up for a specification is what stands before its operator, trimmed, in lower case, with underscores for dashes; without an operator it is all of it.", "quantifier": "all names without operator characters, all operators, and all rests that do not begin with =", "why_tests_cant": "tests try a few specifications", "anchors": ["src/cli/commands/pip.rs: parse_pkg_name_from_spec"]}
{"id": "C185", "title": "What is read of an installed pip package", "statement": "Of the answer of pip, the last line of each key counts, and without a name or a version nothing is found; if pip does not answer, a package is found exactly by a directory NAME-VERSION.dist-info of its name, and has the name and version of the directory.", "quantifier": "all outputs, disks, names and orders of listing", "why_tests_cant": "tests parse one output; disks and orders vary", "anchors": ["src/cli/commands/pip.rs: parse_pip_show_output, scan_target_for_package"]}
{"id": "C186", "title": "What the pip command changes", "statement": "However it ends, the command changes nothing outside its temporary directory and the directory for packages; a dry run and a refused call change nothing and do not call pip; pip is called for the specifications in order up to the first failure; when the command succeeds, the last package is there with its file and a copy of everything that pip installed.", "quantifier": "all disks, arguments and stops, and all pips that only change the temporary directory and report names and versions that are parts of paths", "why_tests_cant": "tests cannot run pip; disks, failures and stops are unbounded", "anchors": ["src/cli/commands/pip.rs: execute, create_rez_package, copy_dir_recursive, install_pip_package"]}
{"id": "C187", "title": "The package file of a pip package", "statement": "For plain texts, the file that is written for a pip package is a program that assigns the name, the version, the summary, the author and the requirements, and defines the commands.", "quantifier": "all names, versions, summaries and requirements", "why_tests_cant": "tests look for parts of one file", "anchors": ["src/cli/commands/pip.rs: create_rez_package"]}
{"id": "C188", "title": "Scan patterns leave out and include what they fit", "statement": "In a pattern of the scanner configuration, ** stands for any characters but line breaks, * for any characters but slashes, ? and . for any one character but a line break, and every other character (that has no meaning in regular expressions) for itself. A directory is left out of a scan exactly if an exclude pattern fits its whole path or what follows one of its slashes; a file counts as a package file exactly if its name is one of the include patterns without wildcards or one with wildcards fits it.", "quantifier": "every pattern without other regular expression characters, every path and every file name", "why_tests_cant": "Patterns and paths are free text; the test files try a few of each.", "anchors": ["crates/rez-next-repository/src/scanner/path.rs:glob_to_regex", "crates/rez-next-repository/src/scanner/path.rs:should_exclude_path", "crates/rez-next-repository/src/scanner/path.rs:is_package_file", "crates/rez-next-repository/src/scanner/path.rs:matches_pattern"]}
{"id": "C189", "title": "A scan comes to every directory within the depth and examines every package file in them, once", "statement": "A scan of a repository comes to exactly the directories at most max_depth levels below the root such that neither they nor a directory between the root and them is left out; it examines exactly the package files in them; it counts each directory and each file once, and with the cache on each examined file is one cache hit or one miss. It fails exactly if the root is no directory or a directory it comes to cannot be read.", "quantifier": "every directory tree, every configuration, every order in which the system lists directories and files are scanned, every state of the cache", "why_tests_cant": "The tree and the listing order are unbounded; tests build a few small trees.", "anchors": ["crates/rez-next-repository/src/scanner/scan.rs:scan_repository", "crates/rez-next-repository/src/scanner/scan.rs:collect_directories_recursive", "crates/rez-next-repository/src/scanner/scan.rs:scan_directory_optimized"]}
{"id": "C190", "title": "The cache of the scanner never shows in the result of a scan", "statement": "If the modification time and the length of a file determine its contents (over the whole history), then after any sequence of scans, lookups, cache refreshes, cache clears and changes of the disk, a scan reports for every examined file the package that is in it now, or an error if there is none, and nothing else.", "quantifier": "every history of scans, lookups, refreshes, clears and changes of the disk, every configuration and every order", "why_tests_cant": "A stale entry shows only after a particular history of changes and scans.", "anchors": ["crates/rez-next-repository/src/scanner/scan.rs:scan_package_file_optimized", "crates/rez-next-repository/src/scanner/scan.rs:scan_repository", "crates/rez-next-repository/src/scanner/cache.rs:refresh"]}
{"id": "C191", "title": "The high performance scanner finds every package below the root of an unchanged disk, in one order", "statement": "The high performance scanner ends on every tree, and on a disk that does not change it returns exactly the packages of the package.py files in the directories strictly below the root that can be come to, each once and sorted by path; the result is the same whatever the listing order, the size of the cache and the scans that came before.", "quantifier": "every directory tree, listing order, cache size and sequence of earlier scans", "why_tests_cant": "Termination and independence of order and cache are statements about all trees and all histories.", "anchors": ["crates/rez-next-repository/src/high_performance_scanner.rs:scan_repository_optimized", "crates/rez-next-repository/src/high_performance_scanner.rs:discover_directories", "crates/rez-next-repository/src/high_performance_scanner.rs:scan_file_optimized"]}
{"id": "C192", "title": "The scan cache is bounded, evicts the least recently used, and its lookups are true", "statement": "The scan cache never holds more than its bound after any history; when it is full it is cut to four fifths, and nothing that stays was used before anything that goes. A lookup by path returns only what is now in a file at, above or below that path; right after a scan that fits in the cache every examined file is found by its own path; a refresh drops exactly the entries whose file changed or went. (Times and lengths determine contents, as in C190.)", "quantifier": "every history of scans, lookups, refreshes, clears and changes of the disk", "why_tests_cant": "Eviction needs more files than a test makes, and staleness a particular history.", "anchors": ["crates/rez-next-repository/src/scanner/scan.rs:scan_package_file_optimized", "crates/rez-next-repository/src/scanner/cache.rs:get_by_prefix", "crates/rez-next-repository/src/scanner/cache.rs:refresh", "crates/rez-next-repository/src/scanner/cache.rs:clear_cache"]}
{"id": "C193", "title": "What the search command matches", "statement": "A result of the search command lists exactly the fields (name; description, tools, requirements if asked for; description and tools if nothing is asked for) with a text in which the query occurs, case ignored unless asked for, each once, and scores what these fields are worth; if no field is asked for, an exact name scores more than any other.", "quantifier": "all repositories, queries and options without --regex", "why_tests_cant": "The matching depends on five switches and on texts of any length; tests try a few words.", "anchors": ["src/cli/commands/search_v2/matcher.rs: evaluate_package_match"]}
{"id": "C194", "title": "What the search command finds", "statement": "Without --latest-only and not by family, the results are the packages of the repositories that match, lie within the dates that can be read and have the variants asked for, each as often as it is stored, cut at the limit; every result of any search is such a package; the search answers whenever the repositories do, and not at all if one cannot be read for a listed name.", "quantifier": "all repositories, dates, queries and options without --regex", "why_tests_cant": "Losing or inventing a package among many cannot be seen on a small repository.", "anchors": ["src/cli/commands/search_v2/filter.rs: perform_search", "src/cli/utils.rs: parse_timestamp"]}
{"id": "C195", "title": "Searching by family gives each family once", "statement": "By family there is exactly one result for each name with a wanted package, up to the limit, and no wanted package of that name scores more.", "quantifier": "all repositories, orders of maps and options without --regex and --latest-only", "why_tests_cant": "The result passes through a hash map whose order differs from run to run.", "anchors": ["src/cli/commands/search_v2/filter.rs: perform_search"]}
{"id": "C196", "title": "Latest versions only", "statement": "With --latest-only there is exactly one result for each name with a wanted package, up to the limit, and no wanted package of that name is newer; a package without a version counts as older than any with one.", "quantifier": "all repositories whose versions are totally ordered, orders of maps", "why_tests_cant": "The maximum over any number of packages in any order.", "anchors": ["src/cli/commands/search_v2/filter.rs: filter_latest_versions"]}
{"id": "C197", "title": "Order and limit of search results", "statement": "There are never more results than the limit; without --latest-only they are sorted (version: no later result is newer; score: descending; else by name), and another limit shows a beginning of them or adds to their end.", "quantifier": "all repositories, sort keys, limits", "why_tests_cant": "Sortedness and stability under the limit concern every number of results.", "anchors": ["src/cli/commands/search_v2/filter.rs: sort_results, perform_search"]}
{"id": "C198", "title": "What the search command prints", "statement": "In the formats json, table and detailed every result is printed once, in order, unless printing panics; it panics exactly in the plain table for a description longer than 37 bytes with a character across byte 37; shorter descriptions are printed whole and longer ones as their first 37 bytes and three dots.", "quantifier": "all results, descriptions and formats", "why_tests_cant": "Byte boundaries in arbitrary Unicode text.", "anchors": ["src/cli/commands/search_v2/display.rs: display_search_results, display_table_format"]}
{"id": "C199", "title": "The resolver is asked what the user asked", "statement": "A request written name, name-V, name-V+ or name-V+<W, perhaps with ! or ~ in front, reaches the resolver as the requirement the resolver itself reads in it, whether it is given to a context, an environment, a solver or the solve command; the solve command passes on every request it can read.", "quantifier": "all such requests, repositories and paths", "why_tests_cant": "Requests pass through two parsers and a printer; tests try a few texts.", "anchors": ["crates/rez-next-python/src/context_bindings.rs: new", "crates/rez-next-python/src/env_bindings.rs: new", "crates/rez-next-solver/src/solver.rs: resolve", "src/cli/commands/solve.rs: parse_requirements"]}
{"id": "C200", "title": "What success of a context means", "statement": "A context is made unless a request cannot be read or the resolver fails, and then holds the packages the resolver found in their order and says that it succeeded; an environment says that it succeeded exactly in the same cases and holds nothing otherwise.", "quantifier": "all requests, paths and answers of the resolver", "why_tests_cant": "Tests look at a few contexts, not at all answers.", "anchors": ["crates/rez-next-python/src/context_bindings.rs: success, failure_description", "crates/rez-next-python/src/env_bindings.rs: new"]}
{"id": "C201", "title": "What a solver depends on", "statement": "What a solver answers depends only on the requirements, the repositories and whether it is strict, takes pre-releases and prefers the latest; a solver without repositories has nothing and does not fail; a Python Solver makes the context that is made with its paths.", "quantifier": "all requests and settings", "why_tests_cant": "An independence is a statement about pairs of all settings.", "anchors": ["crates/rez-next-solver/src/solver.rs: resolve", "crates/rez-next-python/src/solver_bindings.rs: PySolver"]}
{"id": "C202", "title": "Looking at a result of resolving", "statement": "In a result, a package is found by name if one was resolved, and then the first; by a pattern exactly those packages are found in their order whose names it fits; a result is valid exactly if its packages are and no two are written the same; the summary and the variables have what the last package of a name gives; the tools are those of all packages in ascending order, none twice.", "quantifier": "all results, names and patterns", "why_tests_cant": "Patterns and packages are unbounded; tests try three names.", "anchors": ["crates/rez-next-solver/src/resolution.rs: find_packages, validate, get_summary, to_environment_spec, get_all_tools"]}
{"id": "C203", "title": "What the solve command tells", "statement": "The solve command succeeds exactly if all requirements can be read and the resolver answers; its summary and its JSON show every resolved package and why it is there, every failed requirement and every conflict, in their order, and nothing else; the time limit makes no difference and the options of output none to success; with --strict it succeeds only if no requirement has failed.", "quantifier": "all requirements, options and answers of the resolver", "why_tests_cant": "Output is for lists of any length and options in any combination.", "anchors": ["src/cli/commands/solve.rs: execute, display_summary, display_json"]}
{"id": "C204", "title": "The variables and scripts of an environment", "statement": "In an environment made for packages, a variable has the value that the commands of the last package that sets it give it, run on their own; there is a script for each shell that is known and was asked for, by default bash, PowerShell, fish and cmd, which sets these variables; a tool of a context is where its last package has its programs.", "quantifier": "all packages, commands, shells and orders of maps", "why_tests_cant": "Each package is run on its own and merged through maps of any order; tests have one package.", "anchors": ["crates/rez-next-python/src/env_bindings.rs: new, get_activation_script", "crates/rez-next-python/src/context_bindings.rs: get_tools"]}
{"id": "C205", "title": "The latest version of a family", "statement": "What is called the latest version of a family is one of its packages, none only if the family is empty; if all have versions, it is a lowest one.", "quantifier": "all families whose versions compare transitively", "why_tests_cant": "A family has any number of versions in any order; tests add them in one order.", "anchors": ["crates/rez-next-python/src/env_bindings.rs: latest_version"]}
{"id": "C206", "title": "Asking for the latest or for one package", "statement": "get_latest_package gives a package of the family within the range, over all paths together, such that no other such package has a higher version, and nothing exactly when no package is within the range; a package without a version, and a range that cannot be read, count as within. get_package without a version gives a package no other is above; with a version, a package whose version is written so, and nothing exactly when there is none. The paths are those given, as they are, or those of the configuration with the home directory in place of a tilde; paths that do not exist are passed over.", "quantifier": "all machines, configurations, directory trees that can be read, families whose versions compare transitively, ranges, version texts and path lists", "why_tests_cant": "repositories, versions and ranges are unbounded; tests look at a handful of versions in one directory", "anchors": ["crates/rez-next-python/src/package_functions/query.rs: get_latest_package, get_package", "crates/rez-next-python/src/package_functions/mod.rs: make_repo_manager, expand_home"]}
{"id": "C207", "title": "Asking for all packages", "statement": "iter_packages gives exactly the packages within the range, each as often as it is there, lowest version first, when all have versions. get_package_family_names gives the names of all families with at least one package, each once, in order. iter_package_families and walk_packages give the same families in the same order: the first with all packages of each, highest version first, the second with the texts of all their versions in the order of texts.", "quantifier": "all machines, directory trees that can be read, families whose versions compare transitively, ranges and path lists", "why_tests_cant": "the number of repositories, families and versions is unbounded and the answers are combined from all of them", "anchors": ["crates/rez-next-python/src/package_functions/query.rs: iter_packages, get_package_family_names, walk_packages, iter_package_families", "crates/rez-next-repository/src/simple_repository.rs: RepositoryManager::list_packages"]}
{"id": "C208", "title": "Packages as texts, completions and times", "statement": "get_package_from_string reads a name and a version joined by a hyphen back, for every name and every version without hyphen. get_latest_package_from_string is get_latest_package for the text before the last hyphen and the range after it. get_completions gives exactly the families whose name begins with the text but for case, in order. get_last_release_time is the greatest time of any package of the family, none exactly when none has a time. get_developer_package is what package.py of the directory holds.", "quantifier": "all names, texts, machines, directory trees and path lists", "why_tests_cant": "names may hold hyphens themselves and any number of packages may carry times", "anchors": ["crates/rez-next-python/src/package_functions/query.rs: get_package_from_string, get_latest_package_from_string", "crates/rez-next-python/src/package_functions/utility.rs: get_completions, get_last_release_time, get_developer_package"]}
{"id": "C209", "title": "What copy_package and move_package copy", "statement": "Given a version, exactly that version text is copied. Without one it is the version of a package of the family that no other is above; there is an error exactly when no package of the family has a version. The package is then looked for in the given paths, or without any in those of the configuration, in both cases with the home directory in place of a tilde.", "quantifier": "all machines, directory trees that can be read, families whose versions compare transitively, versions and path lists", "why_tests_cant": "which version is chosen depends on every version in every repository", "anchors": ["crates/rez-next-python/src/package_functions/management.rs: copy_package, move_package, resolve_search_paths, find_latest_version"]}
{"id": "C210", "title": "Packages by URI and handle", "statement": "get_package_from_uri of a file that can be loaded is that package. Otherwise .../name/version/file is a package of that name with the version written so if there is one in the paths; otherwise .../name/file is a package of that name that no other is above; otherwise nothing if paths were given, and else the package in the directory the URI stands for, without its first slashes. get_package_from_handle of a package file or of a directory with one is that package. get_package_family_from_repository lists exactly the directories in the directory of the family.", "quantifier": "all URIs, machines, directory trees that can be read and path lists", "why_tests_cant": "the strategies shadow each other in ways that depend on what is in the repositories and on the disk", "anchors": ["crates/rez-next-python/src/package_uri_functions.rs: get_package_from_uri, get_package_from_handle, get_package_from_repository, get_package_family_from_repository"]}
{"id": "C211", "title": "The tokenizer for versions", "statement": "parse_tokens accepts exactly the empty text and the texts spelled by well-formed words (letters, digits and underscores, no underscore at either end) with one dot, hyphen or plus between them, with no more words and numbers than the limits; the words come in order, those that are 64-bit numbers as numbers. With the default limits it agrees with Version.parse on texts without surrounding blanks, special spellings, a leading v or larger numbers. Interning gives every caller the text it gave, under every interleaving of threads, and the pool holds each text at most once and at most ten thousand texts.", "quantifier": "all texts, limits, and interleavings of any number of threads that intern", "why_tests_cant": "there are infinitely many texts and interleavings; tests have a dozen of the first and none of the second", "anchors": ["crates/rez-next-version/src/parser.rs: StateMachineParser, parse_tokens, finalize_token, intern_string, VersionParser"]}
{"id": "C212", "title": "Package data as Python code", "statement": "A text is written as a Python string literal that stands for it, and lists, numbers below 2^63, booleans and nulls as expressions for them. dict_to_attributes_code of an object with names for keys is a Python file that binds each key in the standard order (the keys of package_key_order first, then the rest in order); the last is bound to its value, and all others to a tuple of their value because of the comma behind it. A single attribute is bound to exactly its value.", "quantifier": "all objects whose keys are distinct names and whose values are texts without backslash, carriage return and zero (and no quote at the end of a text between three quotes), integers below 2^63, booleans, nulls and lists of these", "why_tests_cant": "every text is a potential problem of quoting, and keys come in any order", "anchors": ["crates/rez-next-serialise/src/package_serialise.rs: dict_to_attributes_code, dict_to_python_code, format_python_string, package_key_order", "crates/rez-next-python/src/serialise_bindings.rs: dict_to_attributes_code"]}
{"id": "C213", "title": "dump_package_data", "statement": "An object is written exactly when the format is py, python, yaml, yml or json in any case and its name is a text that is not skipped. What is written is the text, in that format, of the entries that are not skipped. As Python code exactly the keys not skipped are bound.", "quantifier": "all objects, formats and lists of skipped keys", "why_tests_cant": "any key may be skipped, in any combination", "anchors": ["crates/rez-next-python/src/serialise_bindings.rs: py_dump_package_data, validate_package_data, serialise_to_string"]}
{"id": "C214", "title": "Texts as YAML blocks", "statement": "as_block_string of a line of printable characters without quotes is a quoted scalar for it. Of two or more lines that all end in a line break it is a literal block that stands for exactly them, whatever the indentation.", "quantifier": "all texts of printable characters; with several lines the last not empty and the first that is not empty not beginning with a space; all indentations above zero", "why_tests_cant": "there are infinitely many texts", "anchors": ["crates/rez-next-serialise/src/package_serialise.rs: as_block_string", "crates/rez-next-python/src/serialise_bindings.rs: as_block_string"]}
{"id": "C215", "title": "The cheapest packages", "statement": "A package costs one, plus a tenth for each requirement, less a thousandth for each major version up to a hundred. The A* search with its priority queue finds only what the search with a free choice of the next state finds. With a heuristic that is never negative and never exceeds what is still to be paid, what it finds costs what it says and no packages that fulfil the request cost less; if the requirements on each family agree, what it finds fulfils the request.", "quantifier": "all repositories, requests of plain requirements, admissible heuristics, hashes that tell the states of the search apart, heaps that yield a greatest element", "why_tests_cant": "optimality compares with every set of packages that fulfils the request", "anchors": ["crates/rez-next-solver/src/astar/astar_search.rs: search, generate_successors, calculate_package_cost", "crates/rez-next-solver/src/astar/search_state.rs: OrdByEstimatedCost, new_from_parent"]}
{"id": "C216", "title": "The heuristics of the search", "statement": "Each family pending costs at least nine tenths, so counting pending requirements with a weight up to nine tenths never overestimates if no family is pending twice, and then the cheapest packages are found. The penalty for conflicts is zero in every state of a search, so the choice for requests full of conflicts searches exactly as the default. With weights that are not negative no estimate is; adapting to statistics never lowers an estimate, and changes none up to the thresholds.", "quantifier": "all states, weights, statistics, repositories and requests", "why_tests_cant": "the states a search can come to are unbounded", "anchors": ["crates/rez-next-solver/src/astar/heuristics.rs: RemainingRequirementsHeuristic, ConflictPenaltyHeuristic, DependencyDepthHeuristic, VersionPreferenceHeuristic, CompositeHeuristic, HeuristicFactory, AdaptiveHeuristic"]}
{"id": "C217", "title": "Replacing the program by a release", "statement": "Wherever self-update stops, the program is what it was or, whole, a file of its name from the archive of the wanted release whose SHA-256 is the one the list of checksums of the release gives for it, provided that no file of that name lay in the temporary directory before. It says that it updated exactly then, and with everything there it does; the checksum is that of the first line about the archive, which must be well formed; --check, and the version that runs without --force, change nothing.", "quantifier": "all releases, lists of checksums, archives, orders of listing, options and crash points", "why_tests_cant": "a crash can come between any two steps, and lists and archives are any", "anchors": ["src/cli/commands/self_update.rs: execute, checksum_for_asset, find_binary_in_dir, replace_binary, parse_tag_name"]}
{"id": "C218", "title": "Predicting accesses", "statement": "The preheater keeps, for each key, the accesses of the 24 hours before the last one. It predicts, with two accesses or more and a confidence of 0.3, the last access plus the average interval; regularity and confidence are between 0 and 1, and three accesses or more are perfectly regular exactly if evenly spaced. A key is queued only after three accesses and with the confidence asked for; the queue never exceeds its bound; recommendations are those within the window, highest scores first. Threads that do not ask for statistics never deadlock.", "quantifier": "all histories of operations, clocks that do not go back, configurations, interleavings of any number of threads", "why_tests_cant": "histories and schedules are unbounded", "anchors": ["crates/rez-next-cache/src/predictive_preheater.rs: AccessPattern, PredictivePreheater", "crates/rez-next-cache/src/intelligent_manager.rs: get"]}
{"id": "C219", "title": "Tuning the cache", "statement": "However calls interleave, the size factors stay between 1 and 2 and 1 and 3, eviction between 0.1 and 1, the factor of times to live between 0.5 and 1, and the history within its window. A parameter is recommended exactly under its condition on the history, by its factor up to its limit, and followed exactly if the confidence suffices. Undisturbed, tuning never makes levels smaller or times to live longer. The operations never deadlock.", "quantifier": "all histories of snapshots, configurations and interleavings of any number of calls", "why_tests_cant": "histories and schedules are unbounded", "anchors": ["crates/rez-next-cache/src/adaptive_tuner.rs: AdaptiveTuner, analyze_and_tune, apply_recommendations"]}
{"id": "C220", "title": "Completion and forwarding", "statement": "Completion looks only at the text before the cursor. After a subcommand that takes packages it offers the packages that begin with the last word, or all; after another subcommand nothing; versions are offered as name-version if they begin with the word. It panics exactly if the cursor is within a character. Forwarding runs REZ_NEXT_BIN, or rez-next beside the program, or on the path, with the arguments unchanged, and hands back its exit code.", "quantifier": "all lines, cursors, packages, versions, environments and arguments", "why_tests_cant": "lines and repositories are any", "anchors": ["src/cli/commands/complete.rs: execute, complete_dynamic, complete_package_names, complete_package_versions", "src/cli/commands/forward.rs: execute, find_rez_next_binary"]}
{"id": "C221", "title": "Artifacts of a build", "statement": "A scan of the install directory succeeds exactly if everything below it can be read, and then lists exactly the files below it, each once, with size, mode, checksum and the type its extension, or without one its mode, gives. A scan that fails leaves only files that are there. The summary counts the files of each type. Validation fails exactly if a file is missing, warns exactly of files of another size, and is clean right after a scan.", "quantifier": "all directory trees, orders of listing, modes and files", "why_tests_cant": "trees are unbounded in depth and size", "anchors": ["crates/rez-next-build/src/artifacts.rs: BuildArtifacts"]}
{"id": "C222", "title": "Finding and running programs", "statement": "which of a bare name is the program in the first directory of PATH that has it, and the first of which_all, which gives all in order; of a path it is that path, from the working directory unless absolute, whatever PATH holds. What is found can be executed. The output of a command is given exactly if it ended with exit code zero. Whether a path can be written is whether the nearest of it and its parents that is there can be, and asking changes no file but the one it makes to try.", "quantifier": "all PATHs, working directories, files, commands and results of running them", "why_tests_cant": "paths and file systems are any", "anchors": ["crates/rez-next-util/src/which.rs: which, which_all", "crates/rez-next-util/src/command.rs: execute_command, get_command_output, command_exists", "crates/rez-next-util/src/filesystem.rs: is_writable"]}
{"id": "C223", "title": "Difference of two contexts", "statement": "For two lists of package requests, of which each name and exact version counts, the difference has one entry for each name in either, in the order of names: added, removed, upgraded, downgraded or unchanged as the versions say. Applied to the first it gives the second, of the same two lists it is empty, it is mirrored if they are swapped, and the counts and the printed lines are those of the entries. A request that cannot be read fails it.", "quantifier": "all lists of requests in either context", "why_tests_cant": "lists and versions are any, and every pair of them counts", "anchors": ["crates/rez-next-python/src/diff_bindings.rs: diff_contexts, diff_context_files, format_diff"]}
{"id": "C224", "title": "Reverse dependencies from Python", "statement": "get_reverse_dependencies tells exactly the packages in the repositories, other than the queried one, with a requirement of it whose range meets the one asked for, each as often as it is there and with the first such requirement; with transitive also those one step further. The flat list has each name-version once in order, the total counts them, and the printed text has a line for each. A repository that cannot be read fails it.", "quantifier": "all repositories, packages, requirements, names and ranges", "why_tests_cant": "any number of packages, in any repository, with any requirements", "anchors": ["crates/rez-next-python/src/depends_bindings.rs: compute_depends, get_reverse_dependencies, get_dependants, PyDependsResult"]}
{"id": "C225", "title": "Pip packages from Python", "statement": "A pip specifier of comparisons, written with any blanks, is converted to a range with exactly the versions that meet all of them (a single or paired > excepted, which becomes >=). A pip requirement with a lower bound, with or without an upper one, is converted to one that is read as the same requirement, one with == to the exact version. pip_install gives the names; the dependents of a package are told in order, as often as they have packages that need it; the written package.py is a program that assigns the data of the package; writing changes no other file and leaves a package that is there unless told to overwrite it.", "quantifier": "all specifiers, versions, names without hyphen or underscore, repositories, packages and disks", "why_tests_cant": "specifiers have any number of comparisons and blanks, and every version has to be told apart", "anchors": ["crates/rez-next-python/src/pip_bindings.rs: pip_version_to_rez, convert_pip_to_rez, pip_install, get_pip_dependencies, write_pip_package, PyPipPackage"]}
{"id": "C226", "title": "The package cache command", "statement": "Wherever rez pkg-cache stops, nothing that was there is changed or gone except requests that were served, whose directories are there by then, and directories in the cache that were empty, if it was asked to clean. Every request whose directory can be made is served, and if the daemon is stopped anywhere and run again none is lost; what it tells adds up. If all requests ask for places in the cache nothing changes outside of it. Adding makes the directory of the version that is asked for. The table lists exactly the cached packages, versions and variants, the log its last fifty lines.", "quantifier": "all file systems, requests, arguments, listing orders, permissions and crash points", "why_tests_cant": "a crash can come after any step, with any requests waiting", "anchors": ["src/cli/commands/pkg_cache/ops.rs: run_daemon, add_variants, remove_variants, clean_cache, view_logs, determine_cache_directory", "src/cli/commands/pkg_cache/display.rs: scan_cache_directory, print_table_row, truncate_string", "src/cli/commands/pkg_cache/mod.rs: execute"]}
{"id": "C227", "title": "What rez view shows", "statement": "With --current, rez view shows the first package of the context in REZ_RXT_FILE, or else in REZ_CONTEXT_FILE, whose name is exactly the one given. Otherwise a directory of that name is looked at first, and then the repositories: with a version, a package that has exactly this version is shown, or the command fails if there is none; without one, the lowest version is shown. The YAML text and the Python text say what the fields shown are, if the texts need no quotes. What is printed depends on the fields that are listed and on no others, and --brief leaves out the comments only.", "quantifier": "all packages, contexts, repositories, arguments and texts", "why_tests_cant": "there are unboundedly many packages and texts, each of which could be misread", "anchors": ["src/cli/commands/view.rs: execute, view_current_package, view_package, load_package_from_repos, display_package_yaml, display_package_python", "src/cli/utils.rs: validate_package_name"]}
{"id": "C228", "title": "What rez context shows", "statement": "rez context reads the context from standard input, from the file named, or from the first of REZ_RXT_FILE and REZ_CONTEXT_FILE whose file exists, and fails without output if that text is no context. Every package, requirement, tool and variable it lists is listed exactly once: packages by name or in the order of the resolve, tools with the path in the last package that has them, and the variables that package commands export. The code that --interpret prints sets, in bash, zsh, fish and PowerShell, exactly those variables to exactly those values and nothing else, if the values have no special characters. The graph has one node for each package and an arrow exactly for each requirement whose leading text names a package of the graph, and is the same on the standard output and in a file.", "quantifier": "all contexts, files, variables, options and orders of hash maps", "why_tests_cant": "there are unboundedly many contexts and values, each of which could be lost or misread by a shell", "anchors": ["src/cli/commands/context.rs: execute, load_context, deserialize_context, convert_context, interpret_context, is_package_variable, generate_dot_graph", "crates/rez-next-context/src/resolved_context.rs: get_tools, get_environ"]}
{"id": "C229", "title": "What rez suites keeps", "statement": "After a suite is created, any sequence of rez suites commands that add, remove, alias and hide, each in a process of its own, leaves on disk exactly the contexts that the same calls of the library give: for each name what was put into it since it was added, under valid and unique names, with the description and the conflict mode of the creation. A command fails exactly when that call fails, and then changes nothing; no command changes another directory. tools prints every tool exactly once, ordered by name, with its context, or the clash; info prints every context with its requests, aliases and hidden tools; list prints the suites in the search paths and only those.", "quantifier": "all sequences of commands, suites, directories, search paths and orders of hash maps", "why_tests_cant": "there are unboundedly many sequences of commands, each of which could lose or duplicate what an earlier one wrote", "anchors": ["src/cli/commands/suites.rs: execute, cmd_create, cmd_list, cmd_info, cmd_add_context, cmd_remove_context, cmd_alias_tool, cmd_hide_tool, cmd_tools, get_suite_paths", "crates/rez-next-suites/src/suite.rs: save, load, format_info"]}
{"id": "C230", "title": "Handles of packages and variants", "statement": "Two handles are equal exactly when their hashes are computed from the same texts, in whatever order their maps are iterated. The handle of a family, package or variant that was not given one is equal to that of another exactly when repository type, location, name, version and index agree; a variant never has the handle of a package or a family, nor a package with a version that of a family. A package has a variant for each of its indices and no other, with the requirements of that index that can be read, in order. The parent package of a variant has the name and version of the package it was made from, and the parent family its name.", "quantifier": "all resources, repositories, file systems and orders of hash maps", "why_tests_cant": "equality, hash and identity must agree for every pair of resources and every map order", "anchors": ["crates/rez-next-repository/src/resources/mod.rs: ResourceHandle", "crates/rez-next-repository/src/resources/family.rs: get_handle", "crates/rez-next-repository/src/resources/package.rs: get_handle", "crates/rez-next-repository/src/resources/variant.rs: from_package, get_handle", "crates/rez-next-repository/src/package_repository/filesystem.rs: iter_variants, get_parent_package, get_parent_package_family"]}
{"id": "C231", "title": "Versions and ranges as Python objects", "statement": "`major`, `minor` and `patch` are the first three pieces between points. `trim(k)` gives the empty version for 0, the version itself from the number of pieces on, and otherwise, unless the first piece is `inf` or `epsilon`, the version made of the first k pieces, which is a prefix of the version; trimming twice is trimming to the smaller number. `next` of a version whose last piece is a number below 2^64 - 1 is that version with the number one greater, and is later; of any other version with room for one more token it is the version with `.1` added, which is earlier. The union of two ranges each read from a text without `..`, neither of them the empty range, holds a version exactly if one of them does. Two ranges made by any sequence of reading, `any`, `none`, intersections, differences and unions are equal exactly when they are the same range, so equal ranges have equal hashes and hold the same versions.", "quantifier": "all version and range texts, all numbers of pieces, and all ranges that a program can build", "why_tests_cant": "equality must be sound for every nesting of operations, and `next` and `union` for every text", "anchors": ["crates/rez-next-python/src/version_bindings.rs: PyVersion, PyVersionRange"]}
{"id": "C232", "title": "Help for packages", "statement": "`PackageHelp` gives the help text, under the name \"Help\", of a package of the given name, in the given range if there is one, that has a help text, and no other such package has a greater version; if there is none, there is no section and `success` is false. In Python a range that cannot be read is an error. Formatting addresses replaces `$BASE` and `$ROOT` by the directory of the package and `$VERSION` by its version wherever they stand, leaves other text without dollar signs alone, and takes a leading `$BROWSER` away together with the white space around the rest. `rez pkg-help NAME` shows the section asked for of a package of that name in the places given, such that none comes before it: the description if there is one, then what is known of the package, then how to use it; `--entries` lists these with their numbers. A number past the last, a package that is not there and a place at which there is nothing are errors. The manual and the list of commands do not depend on repositories.", "quantifier": "all names, ranges, lists of packages, addresses made of texts and places to fill in, machines and arguments", "why_tests_cant": "The newest package with help must be found whatever the order of the repositories, and every mix of placeholders must be filled in.", "anchors": ["crates/rez-next-package/src/package/help.rs: PackageHelp::new, success, format_uris", "crates/rez-next-python/src/package_help_bindings.rs: PyPackageHelp", "src/cli/commands/help.rs: execute, find_package_help, extract_help_sections, display_help_section"]}
{"id": "C233", "title": "Scripts to source, and what an environment says of itself", "statement": "Running the script that `get_source_script`, `SourceManager` or `resolve_source_mode` makes for bash, zsh, fish or PowerShell sets `REZ_CONTEXT_FILE`, `REZ_RESOLVE` to the requests with spaces between them, `REZ_PACKAGES_PATH` if it was set, and for each request `name-version` whose name has no dash `REZPKG_NAME` to the version (the last request of a name counts), and changes no other variable and no alias; this for requests without line breaks and the characters the shell reads in quotes. What is written to a file is the script that is shown: to the path asked for, or to a temporary file named after the process and the shell, or nothing and an error; a mode other than `inline`, `tempfile` and `file:PATH` is an error. The shell is the one named in `SHELL`, or bash. The status agrees with the functions that ask for one thing: active if a context file or a list of packages is set, the packages are the words of that list, the variables are those that begin with `REZ_`; what is printed tells these, packages last. A variable of rez can be asked for by its name or by what follows `REZ_`, in small letters too.", "quantifier": "all lists of requests, shells, processes, environments and paths", "why_tests_cant": "The variables must come out right for every list of requests and in each language of shells.", "anchors": ["crates/rez-next-python/src/source_bindings.rs: PySourceManager, build_activation_script, detect_current_shell, resolve_source_mode", "crates/rez-next-python/src/shell_utils.rs: shell_type_from_str", "crates/rez-next-python/src/status_bindings.rs: PyRezStatus, detect_current_status, is_in_rez_context, get_context_file, get_resolved_package_names, get_rez_env_var"]}
{"id": "C234", "title": "The cache of variants, reductions and statuses of the solver", "statement": "After any calls on a `PackageVariantCache` a lookup gives the variants cached last for that name if the name was not cached again, invalidated or cleared since, and nothing otherwise; lookups change nothing that can be looked up. Hits and misses count the answered and the unanswered lookups since the last `clear`, and the hit rate is their quotient, 0 if there were none. A `TotalReduction` keeps reductions in the order they were added, and its count is their number. A mode of choosing variants is given back by its number and no other number gives a mode; modes and statuses are told apart by what is shown.", "quantifier": "all sequences of calls, names, variants and reductions", "why_tests_cant": "Counts and contents must agree after every history of calls.", "anchors": ["crates/rez-next-solver/src/package_variant.rs: PackageVariantCache", "crates/rez-next-solver/src/reduction.rs: TotalReduction", "crates/rez-next-solver/src/variant_select_mode.rs: VariantSelectMode", "crates/rez-next-solver/src/solver_status.rs: SolverStatus"]}
{"id": "C235", "title": "What the performance monitor of the cache reports", "statement": "After any calls on a `PerformanceMonitor`, the number and the total latency of each kind of operation, the hits, misses and bytes are those of the calls since the last reset; the memory usage is the last one reported and the peak the greatest, when reports do not overlap. Averages, rates and the hit rate are the quotients of these, 0 if nothing was counted, and the hit rate is between 0 and 1. The recent events are the newest operations, newest first, as many as asked for and kept. A benchmark that does not reset gives the gets and puts made during it by the second, adds one entry to the history, and its percentiles are the least bucket that covers the wanted number of samples; a bucket is a power of two above the sample and at most twice it. The order in which operations are recorded does not change counters, sums and histogram. However threads that report memory take turns, the peak does not fall below what it was before they began, and is that or one of the reported values.", "quantifier": "all sequences of calls, latencies, sizes and configurations, and all schedules of threads that report memory", "why_tests_cant": "Counters must agree with every history of calls, and with every interleaving of threads.", "anchors": ["crates/rez-next-cache/src/performance_monitor.rs: PerformanceMonitor, record_get_latency, update_memory_usage, run_benchmark, calculate_latency_percentiles, get_recent_events, reset"]}
{"id": "C236", "title": "What the statistics of the cache levels and the entries say", "statement": "Updating the statistics of a level gives the hit rate, the load factor and the average size of an entry as the quotients of its counters, and keeps the ones from before if there is nothing to divide by; the counters stay. The overall statistics add the levels; the overall hit rate is between 0 and 1 once there was a lookup, and the efficiency score too while the first level is within its memory limit. A cache performs well exactly if its hit rate reaches the target, its efficiency 0.7 and its stability 0.8. An entry is expired exactly when more than its time to live has passed since it was made, whenever it was accessed; accesses give its value and are counted. Its retention score is positive, and does not fall with more accesses nor rise with a larger size or a later last access.", "quantifier": "all counters, limits, rates from before, targets, times and accesses", "why_tests_cant": "Rates must fit the counters for all values, also none.", "anchors": ["crates/rez-next-cache/src/cache_stats.rs: CacheLevelStats::update_calculated_fields, UnifiedCacheStats::update_overall_stats, is_performing_well", "crates/rez-next-cache/src/unified_cache.rs: CacheEntry, CacheEntryMetadata, CacheLevel"]}
{"id": "C237", "title": "What the plugin manager lists and finds", "statement": "A plugin manager lists the plugins of a type: first the built-in ones, then the registered ones in the order of registration. A plugin is found by type and name exactly if one is there, and it is the one that came first, so a built-in plugin cannot be replaced. The types are listed in ascending order, each once. A shell is supported exactly if its name in lower case is one of the nine shells that come with the program, whatever was registered with a manager.", "quantifier": "all sequences of registered plugins, all types and names, all orders of hash sets", "why_tests_cant": "Registrations can be made in any order, with any names.", "anchors": ["crates/rez-next-python/src/plugins_bindings.rs: PyRezPluginManager, get_plugin_manager, is_shell_supported"]}
{"id": "C238", "title": "Which built-in release hooks are made, and what they do", "statement": "Once the built-in hooks are registered, whatever was registered before, and as long as nobody takes their names afterwards: noop, logging and email hooks are made for every path; the e-mail hook has the configuration in the file at the path, read as JSON if its name ends in .json and as TOML otherwise, and the default one if none can be understood; the web hook is made exactly if there is a configuration with an address that is not empty. No built-in hook stops a release; each but noop writes one line, which names the event. The hook types are the built-in names and the names others registered.", "quantifier": "all registrations before and after, all paths, files and readers of JSON and TOML, all events", "why_tests_cant": "Registrations happen in any order; configuration files hold anything.", "anchors": ["crates/rez-next-release-hook/src/builtin.rs: register_builtin_hooks, EmailHook, WebHook, LoggingHook, NoopHook", "crates/rez-next-release-hook/src/event.rs: ReleaseHookEvent", "crates/rez-next-python/src/release_hook_bindings.rs: py_create_release_hook, py_get_release_hook_types"]}
{"id": "C239", "title": "What releasing from Python does", "statement": "Releasing a package from Python with the dry-run flag only looks at the repository, whatever the local flag says; with the local flag alone it is a local release, and otherwise a release; building, tests and version control are never skipped by it. The names of modes are local, dry_run and dry-run, and every other name is a release. A package is valid exactly if package.py is there and can be read, its name is not empty and it has a version; a valid package passes the checks a release begins with, and the result carries its name and version. The versions listed for a family are those in the directories, in the order of their texts.", "quantifier": "all machines, settings, sources, flags, messages and directories that can be read", "why_tests_cant": "A dry run must change nothing on every machine, whatever answers it gives.", "anchors": ["crates/rez-next-python/src/release_bindings.rs: release_package, PyReleaseManager, ReleaseMode::from_str"]}
{"id": "C240", "title": "What forwarding a tool from Python does", "statement": "A dry run of a forwarded tool says the tool and its arguments and runs nothing; otherwise the tool is run with the arguments, the answer is its exit code, and it is an error exactly if it cannot be started. A wrapper script for a tool whose name has no line break has exactly the lines of its shell, bash for every unknown one. Looking for the package that has a tool can only ever answer a package without a name, whatever the repositories hold.", "quantifier": "all tools, arguments, ways in which programs end, shells and repositories", "why_tests_cant": "Repositories hold anything; that no tool is ever found cannot be seen from examples.", "anchors": ["crates/rez-next-python/src/forward_bindings.rs: PyRezForward::execute, generate_forward_script, resolve_forward_tool"]}
{"id": "C241", "title": "What building from Python does", "statement": "Building from Python succeeds exactly if package.py is there and can be read, the package has no variants, and the build starts and ends well; the package then went to the path given, or else to the local packages, and only if it was to be installed. The answer is then always that one build was completed; a build that ended badly gives its errors, and nothing panics. A build system can be made by name exactly for the names listed and for pip and rez_pip, and it is the one a package gets that asks for it by that name. The name given for a directory is that of the system which a build uses there, if the package does not say how it is built and there is a rezbuild.py, or no build script, or a build.sh or build.bat and no file of another system.", "quantifier": "all directories, packages, flags, paths, and ways a build can start and end", "why_tests_cant": "Directories hold any set of files, and the answer must agree with what the build does for each of them.", "anchors": ["crates/rez-next-python/src/build_functions.rs: build_package, get_build_system, create_build_system", "crates/rez-next-build/src/lib.rs: create_build_system", "crates/rez-next-build/src/builder.rs: BuildManager::start_build"]}
{"id": "C242", "title": "What packages and requirements are as Python objects", "statement": "A dictionary makes the package that it describes: each of the 32 attributes that may be given is as in the dictionary, or as in a new package, all other keys are ignored, and a value of a wrong type (a None too), a version that cannot be read or a missing name is an error. The dictionary of a package gives back its name, version, description, authors, requirements of all three kinds, variants, tools, commands, uuid, time, format version and flags, and nothing else. Two packages are equal exactly if names and texts of versions are the same, and then have the same hash; two requirements exactly if they are the same. The conflict of a requirement that is read as it is shown is read as its conflict. The text made for package.py is Python that assigns what the package has, if its texts have no quotes, backslashes and line breaks (a description may have quotes), its commands a line that is not blank, and its description at most 40 bytes; a longer one gains a line break at both ends.", "quantifier": "all dictionaries, packages and requirements", "why_tests_cant": "Dictionaries and packages hold any values; that nothing is lost or misread must hold for all of them.", "anchors": ["crates/rez-next-python/src/package_bindings.rs: PyPackage::from_dict, to_dict, to_package_py, __eq__, __hash__, PyPackageRequirement"]}
{"id": "C243", "title": "What `rez plugins` shows", "statement": "Without a package the command writes three lines about the types there are and succeeds, whatever the settings are. With a package it searches the directories that are given, or else those of the settings and the one for local packages, each once. If all can be read, it fails when none has the package, and otherwise shows the plugins of the highest version: every tool as a command, in order; each of ten build systems whose word is part of a tool or of a requirement; a shell for each tool with the word of a shell in it; and the package itself if its name says that it is a plugin or an extension. Nothing else is shown. If there are none, this is told on the error output and the command still succeeds. The verbose report has one section for each type that occurs, with exactly its plugins in the same order, in whatever order the types come. One directory that cannot be read makes the command fail.", "quantifier": "all arguments, settings, directories, packages, and all orders in which the types are walked", "why_tests_cant": "The tests look at two packages and never at directories, at the choice of the version or at the report; the claim is about all packages, all sets of directories and all orders of a map.", "anchors": ["src/cli/commands/plugins.rs: execute, setup_repositories, find_package, discover_plugins, discover_command_plugins, discover_build_plugins, discover_shell_plugins, discover_extension_plugins, display_plugins_result", "crates/rez-next-repository/src/simple_repository.rs: RepositoryManager::find_packages"]}
{"id": "C244", "title": "Bundles made and read from Python", "statement": "Requests bundled into a directory that can be written come back from it, all and in order, whatever is bundled into other directories afterwards, if each is on one line, not blank and without blanks at its end; of other requests on one line the blanks at the end are lost and blank ones are left out. From any manifest, one written by hand too, exactly the entries are read that stand below a title `packages:` with nothing but entries, blank lines and titles between. Nothing changes where a directory cannot be written, and a directory without a manifest cannot be unbundled. The bundles in a directory are the names of all directories in it that have a manifest, sorted.", "quantifier": "all lists of requests, all texts of manifests, all later bundles, all directories", "why_tests_cant": "The tests bundle a few plain requests and read them back at once; the claim is about all requests, all texts and all histories of bundles.", "anchors": ["crates/rez-next-python/src/bundle_functions.rs: bundle_context, unbundle_context, list_bundles"]}
{"id": "C245", "title": "What repositories answer from Python", "statement": "A repository manager made from Python asks the directories that are given, an empty list too, and those of the settings only if none are given, and passes over paths where nothing is. Asking for a family gives all its packages in all directories, newest first, by both functions for this. The latest package is the one with the highest version in the first directory that has the family, and there is none exactly if no directory has it. The names of the families are those of all packages in all directories, each once, sorted, and if a directory cannot be listed there is an error and no shorter list.", "quantifier": "all lists of directories that can be read, all packages in them, all families", "why_tests_cant": "The tests use one directory with a few packages; the claim is about all contents and all lists of directories, and about the order for all versions that compare transitively.", "anchors": ["crates/rez-next-python/src/repository_bindings.rs: PyRepositoryManager", "crates/rez-next-repository/src/simple_repository.rs: RepositoryManager::list_packages"]}
{"id": "C246", "title": "What package filters answer from Python", "statement": "After any calls that add rules to a filter from Python, a package given as a dictionary is excluded exactly if the text of some exclusion is good and matches it and no inclusion matches it, and is included in all other cases. What is returned for an excluded package names the first exclusion that matches it. A dictionary that describes no package (no name, a bad version, a value of the wrong kind) is neither excluded nor included. Adding a rule fails exactly if its text is bad, and leaves the filter as it was. A filter written as a dictionary is read back as the same filter.", "quantifier": "all sequences of calls with any texts, all dictionaries, all regular expression engines", "why_tests_cant": "The tests use a handful of rules and dictionaries; the claim is about all rules in any order, also with failed calls between them.", "anchors": ["crates/rez-next-python/src/package_filter_bindings.rs: PyPackageFilter, dict_to_package", "crates/rez-next-package/src/filter.rs: PackageFilter"]}
{"id": "C247", "title": "What the status page shows", "statement": "The page written by the gui command shows every package directory of the paths of the settings and of the local path, and of the asked family only if one is asked for, with repository, name, version and description, sorted by name and then by the text of the version, with their number and the list of the paths; or says that there are none. Every text from the disk or the settings is read by a browser as exactly that text, and none can add a tag or leave an attribute: the number of tags depends only on the numbers of packages and paths. A description in double quotes is shown as it is if it has no equals sign and no quote at its ends.", "quantifier": "all contents of repositories, all names, versions, paths and texts of package.py", "why_tests_cant": "The tests escape two texts and look for a few words in a page; that no name or description can break the page is about all texts.", "anchors": ["src/cli/commands/gui.rs: execute, read_description, generate_html_report, html_escape"]}
{"id": "C248", "title": "What the executable runs for its arguments", "statement": "Without a double dash every command gets all its arguments, and the exit code is 0 if it succeeds and 1 if it fails. With a double dash after env, what comes before it is parsed and what comes after it, up to a further double dash, is run in the environment argument by argument. With one after build, what comes after it is given to the build joined by blanks, unless arguments for the build were given before. Wrong arguments run nothing and the exit code is not 0; help runs nothing and it is 0.", "quantifier": "all lists of arguments, all parsers, all outcomes of the commands", "why_tests_cant": "The executable has no unit tests; the claim is about all positions of the double dash and all arguments.", "anchors": ["src/bin/rez-next.rs: main, handle_grouped_command"]}
{"id": "C249", "title": "Which package is loaded from a working directory", "statement": "A developer package is loaded from a directory exactly if package.py is a file there and is a package in Python, or package.py is no file there and package.yaml is one and is a package in YAML. It remembers the file it was read from, and the directory as its root. If neither is a file, \"not found\" is told with the directory; a file that cannot be read and a file that is no package are told apart from that; nothing panics. Nothing else in the directory matters. A package written as YAML is loaded with the fields that YAML files are read for.", "quantifier": "all directories and contents, all directories and special files at the two names, all parsers", "why_tests_cant": "Unit tests write one or two files into a temporary directory; the claim is about all contents and all things that may be at the two paths.", "anchors": ["crates/rez-next-package/src/developer_package.rs: from_path, find_definition_file, load_package_definition, new", "crates/rez-next-python/src/developer_package_bindings.rs: from_path"]}
{"id": "C250", "title": "Which completion script and path a shell gets from Python", "statement": "For a name of one of the four shells, in upper or lower case, the script and the path where it is installed are those of the shell; each listed shell is one of them. For \"ps1\" there is the script of PowerShell. All other texts are errors. If no shell is given there always are a script and a path, both of the same shell, whatever the environment is, and the shell is zsh, fish or PowerShell only if SHELL says so. A completion script is for the same shell as an activation script of that name.", "quantifier": "all texts given as shell, all environments", "why_tests_cant": "Unit tests ask for the four names; the claim is about all texts in all mixtures of case and all values of SHELL.", "anchors": ["crates/rez-next-python/src/completion_bindings.rs: get_completion_script, supported_completion_shells, get_completion_install_path", "crates/rez-next-python/src/source_bindings.rs: detect_current_shell"]}
{"id": "C251", "title": "Suites from Python are what the calls on them say", "statement": "After any calls on a new suite the contexts are those of the calls on contexts alone, their names are valid and different and len counts them. The conflict mode read is the last one set to one of the four texts, in lower case, and error if there is none; reading and setting it again changes nothing. The description is the last one set and the path the last one saved to. A call raises exactly if its name is wrong, taken or missing or its mode is not one of the four, with ValueError or KeyError, and changes nothing then. What was saved to a path is loaded from it as it was then, whatever is done later but saving there again. Loading by name gives the suite of the first search path that has it.", "quantifier": "all sequences of calls, all texts, all disks, all codecs that read back what they wrote", "why_tests_cant": "Unit tests make a few calls; the claim is about all histories of calls and all paths and names.", "anchors": ["crates/rez-next-python/src/suite_bindings.rs: PySuite, PySuiteManager"]}
{"id": "C252", "title": "What the payload cache tells Python is what it holds", "statement": "Every status has its own code, its own constant in the class and in the module, and one description that the function, the dictionary and the Rust type agree on. An entry is listed exactly if its metadata can be read and its package directory does not begin with a dot, with the name, version and index of its metadata, as found when its payload is there and pending when it is not. Asking for a variant gives no path, or the path of an entry that holds this very handle in the directory of the handle. A variant that is not found is created if there is space or it is forced, and otherwise skipped with nothing changed. A created variant holds its handle and payload at the path given and is listed there as found unless its name begins with a dot. A removed variant is gone from the path given. What is in other directories stays as it was. A source that is no directory raises.", "quantifier": "all caches, handles, payloads, orders of listing, clocks and codes", "why_tests_cant": "Unit tests use one or two variants in a fresh directory; the claim is about every content of the cache and every handle.", "anchors": ["crates/rez-next-python/src/package_cache_bindings.rs: PyPackageCache, PyCacheStatus, PyVariantHandle", "crates/rez-next-package/src/package_cache.rs: list_cached, hash_path, description"]}
