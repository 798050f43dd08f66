{
 "claims": [
  {
   "property": "C01",
   "status": "proved",
   "theorems": [
    "Rez.Props.C01_compare_swap",
    "Rez.Props.C01_compare_refl",
    "Rez.Props.C01_lt_gt_exclusive"
   ],
   "note": "Full statement for all versions."
  },
  {
   "property": "C02",
   "status": "partial",
   "theorems": [
    "Rez.Props.C02_transitive_false",
    "Rez.Props.C02_equality_not_transitive",
    "Rez.Props.C02_token_cycle",
    "Rez.Props.C02_transitive_same_length_partial",
    "Rez.Props.C02_transitive_no_trailing_zero_partial"
   ],
   "note": "The property is false of the code (three refutations: implicit trailing zeros, 1/1.0/1.00, digit runs past 64 bits). Transitivity is proved on the two regions where it holds."
  },
  {
   "property": "C03",
   "status": "partial",
   "theorems": [
    "Rez.Props.C03_hash_false",
    "Rez.Props.C03_hash_partial"
   ],
   "note": "False of the code (1.0 == 1.0.0 with different hashes). Proved for same length, separators and no leading zeros."
  },
  {
   "property": "C04",
   "status": "proved",
   "theorems": [
    "Rez.Props.C04_round_trip",
    "Rez.Props.C04_prints_input",
    "Rez.Props.C04_spelling"
   ],
   "note": "Full statement for all strings."
  },
  {
   "property": "C05",
   "status": "proved",
   "theorems": [
    "Rez.Props.C05_grammar",
    "Rez.Props.C05_accepts_iff"
   ],
   "note": "Acceptance characterised by the Spells grammar, both directions."
  },
  {
   "property": "C06",
   "status": "proved",
   "theorems": [
    "Rez.Props.C06_inf_greatest",
    "Rez.Props.C06_empty_least"
   ],
   "note": ""
  },
  {
   "property": "C07",
   "status": "partial",
   "theorems": [
    "Rez.Props.C07_numeric_false",
    "Rez.Props.C07_numeric_partial"
   ],
   "note": "False past 2^64. Proved for components below 2^64."
  },
  {
   "property": "C08",
   "status": "proved",
   "theorems": [
    "Rez.Props.C08_prefix_tokenwise",
    "Rez.Props.C08_prefix_refl",
    "Rez.Props.C08_prefix_trans"
   ],
   "note": ""
  },
  {
   "property": "C09",
   "status": "proved",
   "theorems": [
    "Rez.Props.C09_prerelease",
    "Rez.Props.C09_special"
   ],
   "note": ""
  },
  {
   "property": "C10",
   "status": "proved",
   "theorems": [
    "Rez.Props.C10_range_meaning",
    "Rez.Props.C10_dots",
    "Rez.Props.C10_plus",
    "Rez.Props.C10_plus_upper",
    "Rez.Props.C10_plus_false"
   ],
   "note": "Full statement; the shorthand forms need a version not itself written with +, C10_plus_false shows why."
  },
  {
   "property": "C11",
   "status": "partial",
   "theorems": [
    "Rez.Props.C11_intersect_false",
    "Rez.Props.C11_intersect_none_false",
    "Rez.Props.C11_intersect_contained_partial",
    "Rez.Props.C11_intersect_complete_partial",
    "Rez.Props.C11_contradictory_none_partial"
   ],
   "note": "False of the code twice (is_any ignores subtractions; order not transitive). Soundness proved for all histories with truthful is_any, completeness on families where <= is transitive."
  },
  {
   "property": "C12",
   "status": "partial",
   "theorems": [
    "Rez.Props.C12_union_false",
    "Rez.Props.C12_union_partial",
    "Rez.Props.C12_union_superset_partial"
   ],
   "note": "False after subtract. Exact for all ranges built without subtract; superset always."
  },
  {
   "property": "C13",
   "status": "partial",
   "theorems": [
    "Rez.Props.C13_subtract_some",
    "Rez.Props.C13_subtract_none_false",
    "Rez.Props.C13_subtract_any_false",
    "Rez.Props.C13_subtract_none_partial"
   ],
   "note": "The Some half is proved in full. The None half is false (probing); proved for probed versions."
  },
  {
   "property": "C14",
   "status": "partial",
   "theorems": [
    "Rez.Props.C14_subset_true_false",
    "Rez.Props.C14_subset_false_false",
    "Rez.Props.C14_subset_no_partial",
    "Rez.Props.C14_subset_yes_partial"
   ],
   "note": "False in both directions; the proved parts are the exact guarantees the probing gives."
  },
  {
   "property": "C15",
   "status": "partial",
   "theorems": [
    "Rez.Props.C15_symmetric_false",
    "Rez.Props.C15_no_miss_false",
    "Rez.Props.C15_no_miss_partial",
    "Rez.Props.C15_symmetric_single_partial",
    "Rez.Props.C15_contradictory_partial"
   ],
   "note": "Symmetry and no-miss are both false; no-miss proved on transitive families, symmetry for single-constraint alternatives."
  },
  {
   "property": "C16",
   "status": "partial",
   "theorems": [
    "Rez.Props.C16_serialise_false",
    "Rez.Props.C16_serialise_partial"
   ],
   "note": "False: deserialised ranges contain everything. The text survives and re-parses to the same range."
  },
  {
   "property": "C17",
   "status": "partial",
   "theorems": [
    "Rez.Props.C17_is_empty",
    "Rez.Props.C17_is_any_false",
    "Rez.Props.C17_is_any_partial"
   ],
   "note": "is_empty proved in full; is_any false after subtract, proved otherwise."
  },
  {
   "property": "C18",
   "status": "partial",
   "theorems": [
    "Rez.Props.C18_compatible_two_partial",
    "Rez.Props.C18_compatible_more_partial",
    "Rez.Props.C18_compatible_false"
   ],
   "note": "Exact interval proved below 2^64-1; wraps at 2^64-1 (release build)."
  },
  {
   "property": "C19",
   "status": "proved",
   "theorems": [
    "Rez.Props.C19_and",
    "Rez.Props.C19_or",
    "Rez.Props.C19_and_many",
    "Rez.Props.C19_or_many"
   ],
   "note": "Full statement, for nested constraints and any number of operands."
  },
  {
   "property": "C20",
   "status": "partial",
   "theorems": [
    "Rez.Props.C20_round_trip_false",
    "Rez.Props.C20_empty_version_false",
    "Rez.Props.C20_round_trip_partial"
   ],
   "note": "False of the code (env.X!=None, ==epsilon). Proved for every requirement in WritableReq."
  },
  {
   "property": "C21",
   "status": "partial",
   "theorems": [
    "Rez.Props.C21_operator",
    "Rez.Props.C21_list",
    "Rez.Props.C21_dash_name_false",
    "Rez.Props.C21_dash_version_false",
    "Rez.Props.C21_prefix_partial",
    "Rez.Props.C21_prefix_meaning_partial",
    "Rez.Props.C21_plus_partial",
    "Rez.Props.C21_plus_upper_partial",
    "Rez.Props.C21_bare_partial"
   ],
   "note": "Operator forms and lists proved in full; the dash forms are false for names or versions with a dash, proved otherwise."
  },
  {
   "property": "C22",
   "status": "partial",
   "theorems": [
    "Rez.Props.C22_agree_false",
    "Rez.Props.C22_agree_plus_false",
    "Rez.Props.C22_agree_partial"
   ],
   "note": "False of the code (dash forms). Proved for all operator forms."
  },
  {
   "property": "C23",
   "status": "proved",
   "theorems": [
    "Rez.Props.C23_strict_satisfies"
   ],
   "note": "Full statement. Requirement texts that begin with ! are conflicts (C26). What is assumed of the repositories, of HashMap iteration and of sorting is the hypothesis EnvOk."
  },
  {
   "property": "C24",
   "status": "proved",
   "theorems": [
    "Rez.Props.C24_one_per_family"
   ],
   "note": "Full statement, strict or lenient."
  },
  {
   "property": "C25",
   "status": "partial",
   "theorems": [
    "Rez.Props.C25_fuel_irrelevant",
    "Rez.Props.C25_terminates_false",
    "Rez.Props.C25_spellings_false",
    "Rez.Props.C25_layered_partial"
   ],
   "note": "False in general: two refutations, one on a repository whose packages require nothing. C25_layered_partial: every resolve returns when families can be layered (dependencies go strictly down, versions of equal spelling agree), for any fuel-free run."
  },
  {
   "property": "C26",
   "status": "partial",
   "theorems": [
    "Rez.Props.C26_package_conflict_false",
    "Rez.Props.C26_blank_conflict_false",
    "Rez.Props.C26_request_conflicts_partial"
   ],
   "note": "False for conflicts that resolved packages bring; proved for conflicts of the request."
  },
  {
   "property": "C27",
   "status": "proved",
   "theorems": [
    "Rez.Props.C27_listed"
   ],
   "note": "Full statement, with prerelease policy and variant."
  },
  {
   "property": "C28",
   "status": "proved",
   "theorems": [
    "Rez.Props.C28_needed"
   ],
   "note": "Full statement."
  },
  {
   "property": "C29",
   "status": "partial",
   "theorems": [
    "Rez.Props.C29_candidates_partial",
    "Rez.Props.C29_sorted_partial",
    "Rez.Props.C29_sorted_false"
   ],
   "note": "The set of candidates is proved in full. The order is false for versions without a consistent order (C02), proved otherwise."
  },
  {
   "property": "C30",
   "status": "proved",
   "theorems": [
    "Rez.Props.C30_cycle_exact",
    "Rez.Props.C30_result_acyclic",
    "Rez.Props.C30_cycle_reported"
   ],
   "note": "Full statement for the search, and for the relation among the resolved packages."
  },
  {
   "property": "C31",
   "status": "partial",
   "theorems": [
    "Rez.Props.C31_unresolvable_false"
   ],
   "note": "False."
  },
  {
   "property": "C32",
   "status": "partial",
   "theorems": [
    "Rez.Props.C32_order_false",
    "Rez.Props.C32_spurious_cycle_false",
    "Rez.Props.C32_topological_partial"
   ],
   "note": "False after a package is added again under its key. Proved for all clean histories and all iteration orders."
  },
  {
   "property": "C33",
   "status": "partial",
   "theorems": [
    "Rez.Props.C33_readd_false",
    "Rez.Props.C33_dangling_false",
    "Rez.Props.C33_mirrored_partial"
   ],
   "note": "False after re-adding a package and after a failed add_dependency_edge. Proved for all clean histories."
  },
  {
   "property": "C34",
   "status": "proved",
   "theorems": [
    "Rez.Props.C34_accessibility",
    "Rez.Props.C34_accessibility_keys",
    "Rez.Props.C34_find_cycle"
   ],
   "note": "Full statement for every graph, mirrored or not; absence of panic included."
  },
  {
   "property": "C35",
   "status": "partial",
   "theorems": [
    "Rez.Props.C35_unsettled_false",
    "Rez.Props.C35_settled_partial",
    "Rez.Props.C35_latest_partial",
    "Rez.Props.C35_earliest_partial"
   ],
   "note": "False when no requirement names an exact version. Proved otherwise, on transitive families for the choice."
  },
  {
   "property": "C36",
   "status": "partial",
   "theorems": [
    "Rez.Props.C36_second_requirement_false",
    "Rez.Props.C36_dependency_false",
    "Rez.Props.C36_conflict_false",
    "Rez.Props.C36_unreadable_range_false",
    "Rez.Props.C36_leftover_false",
    "Rez.Props.C36_agreeing_partial",
    "Rez.Props.C36_families_partial",
    "Rez.Props.C36_check_idle_false"
   ],
   "note": "False: five refutations (second requirement on a family, dependency on a chosen family, conflicts, version texts that are no range, leftovers of an earlier search). Proved when the requirements on each family agree; without assumptions: families present, listed, no pre-release."
  },
  {
   "property": "C37",
   "status": "proved",
   "theorems": [
    "Rez.Props.C37_bounded",
    "Rez.Props.C37_ends",
    "Rez.Props.C37_fuel_irrelevant"
   ],
   "note": "Full statement; also that every search ends."
  },
  {
   "property": "C38",
   "status": "partial",
   "theorems": [
    "Rez.Props.C38_repeat_false",
    "Rez.Props.C38_nothing_again_partial",
    "Rez.Props.C38_clear_partial"
   ],
   "note": "False after a successful search; proved for searches that find nothing, and after clear."
  },
  {
   "property": "C39",
   "status": "partial",
   "theorems": [
    "Rez.Props.C39_clock_false",
    "Rez.Props.C39_last_put_partial"
   ],
   "note": "False when the clock stands before 1970 at a put; proved for every other history. cleanup cannot take part: it never returns (C41)."
  },
  {
   "property": "C40",
   "status": "partial",
   "theorems": [
    "Rez.Props.C40_ttl_false",
    "Rez.Props.C40_zero_false",
    "Rez.Props.C40_concurrent_false",
    "Rez.Props.C40_capacity_partial"
   ],
   "note": "False for TTL, capacity 0 and concurrent puts; proved for LRU, LFU, FIFO with capacity at least 1, operations one at a time."
  },
  {
   "property": "C41",
   "status": "partial",
   "theorems": [
    "Rez.Props.C41_put_get_false",
    "Rez.Props.C41_put_remove_false",
    "Rez.Props.C41_put_put_false",
    "Rez.Props.C41_cleanup_false",
    "Rez.Props.C41_cleanup_never_false",
    "Rez.Props.C41_repository_false",
    "Rez.Props.C41_repository_puts_false",
    "Rez.Props.C41_lookups_partial",
    "Rez.Props.C41_inserts_partial",
    "Rez.Props.C41_repository_partial"
   ],
   "note": "Seven refutations, among them that SolverCache::cleanup never returns in any company. Proved for lookups among themselves, inserts among themselves, and the repository cache without put, for any number of tasks and operations."
  },
  {
   "property": "C42",
   "status": "partial",
   "theorems": [
    "Rez.Props.C42_overwrite_false",
    "Rez.Props.C42_some_put_partial",
    "Rez.Props.C42_no_overwrite_partial",
    "Rez.Props.C42_roomy_partial",
    "Rez.Props.C42_exact_partial",
    "Rez.Props.C42_just_put",
    "Rez.Props.C42_served_again"
   ],
   "note": "False: an overwritten value comes back after eviction. Proved: what is served was put for the key since its removal and is not expired (all histories); it is the last put when keys are removed before being put again, or when the first level never fills."
  },
  {
   "property": "C43",
   "status": "partial",
   "theorems": [
    "Rez.Props.C43_capacity_partial",
    "Rez.Props.C43_zero_false",
    "Rez.Props.C43_concurrent_false"
   ],
   "note": "False for a limit of zero and for concurrent puts; proved for limits of at least one, one operation at a time, for any eviction order."
  },
  {
   "property": "C44",
   "status": "partial",
   "theorems": [
    "Rez.Props.C44_remove",
    "Rez.Props.C44_clear",
    "Rez.Props.C44_concurrent_false"
   ],
   "note": "Full statement for one operation at a time; false with two tasks."
  },
  {
   "property": "C45",
   "status": "partial",
   "theorems": [
    "Rez.Props.C45_hit_partial",
    "Rez.Props.C45_just_put",
    "Rez.Props.C45_same_second_false",
    "Rez.Props.C45_older_false",
    "Rez.Props.C45_deleted_false",
    "Rez.Props.C45_restart_false",
    "Rez.Props.C45_index_key_false"
   ],
   "note": "False for changes within one second, older modification times, deleted sources and for every restart. Proved: a hit is the last put of the key, alive, and unchanged as far as modification times in seconds show; a package just put is found."
  },
  {
   "property": "C46",
   "status": "partial",
   "theorems": [
    "Rez.Props.C46_last_put_partial",
    "Rez.Props.C46_no_error_partial",
    "Rez.Props.C46_just_put",
    "Rez.Props.C46_persists",
    "Rez.Props.C46_put_package",
    "Rez.Props.C46_collision_false",
    "Rez.Props.C46_crash_false"
   ],
   "note": "False for colliding hashes and after a crash inside put. Proved: with an injective hash only the last completed put is returned, through any restarts and crashes; no errors without crashes; a package just put is found, also by a new process."
  },
  {
   "property": "C47",
   "status": "partial",
   "theorems": [
    "Rez.Props.C47_found_complete_partial",
    "Rez.Props.C47_added_partial",
    "Rez.Props.C47_remove_crash_false",
    "Rez.Props.C47_mixed_false"
   ],
   "note": "False for a crash inside a removal and past 26 adds in a directory. Proved for every reachable state of one adder, any readers and quiet removals, with crashes anywhere in adds and lookups: found means a complete copy of an added source; an add that ends is found."
  },
  {
   "property": "C48",
   "status": "partial",
   "theorems": [
    "Rez.Props.C48_add_partial",
    "Rez.Props.C48_many_false"
   ],
   "note": "False from the 28th variant of a directory on; proved below 26 adds."
  },
  {
   "property": "C49",
   "status": "partial",
   "theorems": [
    "Rez.Props.C49_two_writers_false",
    "Rez.Props.C49_reader_false"
   ],
   "note": "False for two adders of one variant and for a reader racing a removal. One adder among any number of readers: C47_found_complete_partial."
  },
  {
   "property": "C50",
   "status": "partial",
   "theorems": [
    "Rez.Props.C50_space_partial",
    "Rez.Props.C50_space_false",
    "Rez.Props.C50_requirements_partial",
    "Rez.Props.C50_requirements_false",
    "Rez.Props.C50_clean_partial",
    "Rez.Props.C50_clock_false"
   ],
   "note": "Both space checks and clean wrap around: refuted; proved exact without overflow, with access times not in the future, no copy flags and one entry per handle."
  },
  {
   "property": "C51",
   "status": "proved",
   "theorems": [
    "Rez.Props.C51_successor",
    "Rez.Props.C51_sequence",
    "Rez.Props.C51_no_repeat",
    "Rez.Props.C51_all_names"
   ],
   "note": ""
  },
  {
   "property": "C52",
   "status": "partial",
   "theorems": [
    "Rez.Props.C52_created_partial",
    "Rez.Props.C52_first_36_partial",
    "Rez.Props.C52_37th_false"
   ],
   "note": "False from the 37th link of a directory on; proved for the first 36."
  },
  {
   "property": "C53",
   "status": "partial",
   "theorems": [
    "Rez.Props.C53_permutation",
    "Rez.Props.C53_no_panic_partial",
    "Rez.Props.C53_timestamp_returns_partial",
    "Rez.Props.C53_panic_false"
   ],
   "note": "Every returned list is a permutation, for all orderers. False: a version-split orderer panics when two packages have no version. No panic proved otherwise, when versions compare transitively."
  },
  {
   "property": "C54",
   "status": "partial",
   "theorems": [
    "Rez.Props.C54_sorted_partial",
    "Rez.Props.C54_sorted_false",
    "Rez.Props.C54_split",
    "Rez.Props.C54_split_ascending_partial",
    "Rez.Props.C54_timestamp",
    "Rez.Props.C54_per_family"
   ],
   "note": "Split, timestamp and per-family orderers proved in full; the sorted orderer when versions compare transitively, refuted for versions in a cycle."
  },
  {
   "property": "C55",
   "status": "partial",
   "theorems": [
    "Rez.Props.C55_round_trip_partial",
    "Rez.Props.C55_list_partial",
    "Rez.Props.C55_per_family_false",
    "Rez.Props.C55_list_false"
   ],
   "note": "False for every per-family orderer; proved for the others and for lists of them."
  },
  {
   "property": "C56",
   "status": "partial",
   "theorems": [
    "Rez.Props.C56_exact",
    "Rez.Props.C56_more_exclusions",
    "Rez.Props.C56_more_inclusions",
    "Rez.Props.C56_lists",
    "Rez.Props.C56_text_exact",
    "Rez.Props.C56_text_monotone",
    "Rez.Props.C56_direct_false",
    "Rez.Props.C56_fraction_false"
   ],
   "note": "Proved exactly for rez-next-package, and for rez-next-package-filter when rules are read from text. False there for rules built directly: the stored text can be read as another rule."
  },
  {
   "property": "C57",
   "status": "partial",
   "theorems": [
    "Rez.Props.C57_round_trip_partial",
    "Rez.Props.C57_family_false",
    "Rez.Props.C57_timestamp_false",
    "Rez.Props.C57_inclusive_false",
    "Rez.Props.C57_text_partial",
    "Rez.Props.C57_dash_false"
   ],
   "note": "rez-next-package: false for rules with a family, all inclusive and all timestamp rules; proved for the others. rez-next-package-filter: proved for all filters whose range families have no dash; refuted with a dash."
  },
  {
   "property": "C58",
   "status": "proved",
   "theorems": [
    "Rez.Props.C58_vars",
    "Rez.Props.C58_aliases",
    "Rez.Props.C58_lists",
    "Rez.Props.C58_stopped",
    "Rez.Props.C58_stop",
    "Rez.Props.C58_paths"
   ],
   "note": ""
  },
  {
   "property": "C59",
   "status": "partial",
   "theorems": [
    "Rez.Props.C59_bash_partial",
    "Rez.Props.C59_bash_false",
    "Rez.Props.C59_fish_partial",
    "Rez.Props.C59_fish_false",
    "Rez.Props.C59_powershell_partial",
    "Rez.Props.C59_powershell_false",
    "Rez.Props.C59_context_bash_partial",
    "Rez.Props.C59_context_fish_partial",
    "Rez.Props.C59_context_powershell_partial",
    "Rez.Props.C59_context_false"
   ],
   "note": "Stated against small readings of bash, fish and PowerShell (Spec/Shell.lean). Proved for all values without the characters the escaping misses, per shell and per generator; refuted for those characters. Startup commands and sourced scripts are arbitrary shell text and are excluded; cmd is not covered."
  },
  {
   "property": "C60",
   "status": "partial",
   "theorems": [
    "Rez.Props.C60_phases_partial",
    "Rez.Props.C60_path_partial",
    "Rez.Props.C60_unset",
    "Rez.Props.C60_reset_false",
    "Rez.Props.C60_error"
   ],
   "note": "Phases, additional variables, PATH and unset proved for variables that no statement resets; false with resetenv, which takes effect last."
  },
  {
   "property": "C61",
   "status": "partial",
   "theorems": [
    "Rez.Props.C61_partial",
    "Rez.Props.C61_unique",
    "Rez.Props.C61_case_false"
   ],
   "note": "Proved when PATH is the only variable of that name; false when another variable differs from PATH in case only."
  },
  {
   "property": "C62",
   "status": "proved",
   "theorems": [
    "Rez.Props.C62_exact",
    "Rez.Props.C62_minimal",
    "Rez.Props.C62_count"
   ],
   "note": ""
  },
  {
   "property": "C63",
   "status": "partial",
   "theorems": [
    "Rez.Props.C63_unique_partial",
    "Rez.Props.C63_lookup",
    "Rez.Props.C63_name",
    "Rez.Props.C63_add",
    "Rez.Props.C63_remove",
    "Rez.Props.C63_edit_false",
    "Rez.Props.C63_load_false"
   ],
   "note": "Proved for add, remove, lookup and edits through the named calls, over all histories; false when a context is renamed through get_context_mut and for hand-written files."
  },
  {
   "property": "C64",
   "status": "partial",
   "theorems": [
    "Rez.Props.C64_first",
    "Rez.Props.C64_last",
    "Rez.Props.C64_error",
    "Rez.Props.C64_prefix_partial",
    "Rez.Props.C64_prefix_false",
    "Rez.Props.C64_prefix_order_false",
    "Rez.Props.C64_hidden",
    "Rez.Props.C64_reachable"
   ],
   "note": "First, last and error modes proved exactly, with hidden tools; prefix mode proved without clashes among prefixed names, refuted with them."
  },
  {
   "property": "C65",
   "status": "partial",
   "theorems": [
    "Rez.Props.C65_merge",
    "Rez.Props.C65_layers",
    "Rez.Props.C65_idempotent",
    "Rez.Props.C65_assoc_false",
    "Rez.Props.C65_load"
   ],
   "note": "Priority of layers proved for every path, with idempotence; associativity false when a plain value stands between objects. The three text formats are not modelled."
  },
  {
   "property": "C66",
   "status": "partial",
   "theorems": [
    "Rez.Props.C66_visible_partial",
    "Rez.Props.C66_local",
    "Rez.Props.C66_dropped_false",
    "Rez.Props.C66_replaced_false"
   ],
   "note": "Locality proved in full; visibility when the parent is missing or an object. Under a plain value the new value is dropped, or the plain value replaced: refuted."
  },
  {
   "property": "C67",
   "status": "partial",
   "theorems": [
    "Rez.Props.C67_find",
    "Rez.Props.C67_first",
    "Rez.Props.C67_latest_partial",
    "Rez.Props.C67_latest_false",
    "Rez.Props.C67_version"
   ],
   "note": "Proved: all packages are found highest first; get_package gives the highest of the first repository with the family, or the first package with the version asked for. False when several repositories have the family."
  },
  {
   "property": "C68",
   "status": "partial",
   "theorems": [
    "Rez.Props.C68_same_partial",
    "Rez.Props.C68_settled_partial",
    "Rez.Props.C68_broken_false",
    "Rez.Props.C68_unreadable_false"
   ],
   "note": "Proved for directories in which everything loads, and for every call but the first in general; the first call differs when something cannot be loaded or read: refuted."
  },
  {
   "property": "C69",
   "status": "partial",
   "theorems": [
    "Rez.Props.C69_nothing_false",
    "Rez.Props.C69_name",
    "Rez.Props.C69_report_partial",
    "Rez.Props.C69_latest_false",
    "Rez.Props.C69_limit",
    "Rez.Props.C69_limit_false"
   ],
   "note": "False: a search asks for the family with the empty name and finds nothing, for every filter and repository. Proved: what names match, and what would be reported of the packages it is given. The latest version is chosen by text and, with a limit, the families by hash order: refuted."
  },
  {
   "property": "C70",
   "status": "partial",
   "theorems": [
    "Rez.Props.C70_entries",
    "Rez.Props.C70_names",
    "Rez.Props.C70_len_partial",
    "Rez.Props.C70_len_false"
   ],
   "note": "Entries and names proved for all histories; len counts names, not entries: proved equal when no name has two entries, refuted otherwise."
  },
  {
   "property": "C71",
   "status": "partial",
   "theorems": [
    "Rez.Props.C71_identifier",
    "Rez.Props.C71_check",
    "Rez.Props.C71_identifier_false",
    "Rez.Props.C71_truncate_partial",
    "Rez.Props.C71_truncate_ascii",
    "Rez.Props.C71_truncate_false",
    "Rez.Props.C71_truncate_panic_false",
    "Rez.Props.C71_truncate_fits_false",
    "Rez.Props.C71_duration",
    "Rez.Props.C71_duration_false",
    "Rez.Props.C71_age",
    "Rez.Props.C71_list",
    "Rez.Props.C71_normalized"
   ],
   "note": "Proved: identifiers for ASCII-like alphanumerics, truncate on ASCII within the bound when the bound leaves room for the suffix, durations, ages, lists. False: identifiers of other alphabets and keywords, truncate panics inside a character and exceeds small bounds."
  },
  {
   "property": "C72",
   "status": "partial",
   "theorems": [
    "Rez.Props.C72_create",
    "Rez.Props.C72_order_partial",
    "Rez.Props.C72_skip",
    "Rez.Props.C72_unknown_false"
   ],
   "note": "Proved: one hook per registered type in order, the last registration wins; unknown types are dropped silently: refuted."
  },
  {
   "property": "C73",
   "status": "partial",
   "theorems": [
    "Rez.Props.C73_exact",
    "Rez.Props.C73_asks_partial",
    "Rez.Props.C73_accepts",
    "Rez.Props.C73_flags_false"
   ],
   "note": "Proved exactly what validate accepts; conflicts and weak requirements are taken for ordinary ones: refuted."
  },
  {
   "property": "C74",
   "status": "partial",
   "theorems": [
    "Rez.Props.C74_shorter_false",
    "Rez.Props.C74_depth_partial",
    "Rez.Props.C74_compatible_partial"
   ],
   "note": "False for shorter candidates. Proved for numeric versions below 2^64 of at least the constraint length."
  },
  {
   "property": "C75",
   "status": "partial",
   "theorems": [
    "Rez.Props.C75_arch_false",
    "Rez.Props.C75_arch_ignored"
   ],
   "note": "False of the code; C75_arch_ignored states what holds: architecture never matters."
  },
  {
   "property": "C76",
   "status": "partial",
   "theorems": [
    "Rez.Props.C76_order_false",
    "Rez.Props.C76_platform_partial",
    "Rez.Props.C76_env"
   ],
   "note": "False for contradictory platform conditions; proved otherwise. The environment half is proved in full."
  },
  {
   "property": "C77",
   "status": "partial",
   "theorems": [
    "Rez.Props.C77_no_panic_false",
    "Rez.Props.C77_no_panic_partial"
   ],
   "note": "False on non-ASCII text; proved for ASCII."
  },
  {
   "property": "C78",
   "status": "proved",
   "theorems": [
    "Rez.Props.C78_wildcard"
   ],
   "note": ""
  },
  {
   "property": "C79",
   "status": "partial",
   "theorems": [
    "Rez.Props.C79_depth_false",
    "Rez.Props.C79_depth_partial"
   ],
   "note": "False (shared visited set). The depth is never too large."
  },
  {
   "property": "C80",
   "status": "partial",
   "theorems": [
    "Rez.Props.C80_reported_false",
    "Rez.Props.C80_reported_real_partial",
    "Rez.Props.C80_disjoint_reported",
    "Rez.Props.C80_requirements_recorded"
   ],
   "note": "False where <= is not transitive. Reported conflicts are real on transitive families; ranges without intersection are always reported."
  },
  {
   "property": "C81",
   "status": "proved",
   "theorems": [
    "Rez.Props.C81_exclusion_holds"
   ],
   "note": "Full statement for every history before and after the exclusion."
  },
  {
   "property": "C82",
   "status": "partial",
   "theorems": [
    "Rez.Props.C82_unmet_reported",
    "Rez.Props.C82_reported_unmet_partial",
    "Rez.Props.C82_stale_failure_false"
   ],
   "note": "Every unmet requirement is reported (full). Reported ones are unmet for non-weak requirements; false for weak ones."
  },
  {
   "property": "C83",
   "status": "partial",
   "theorems": [
    "Rez.Props.C83_versionless_false",
    "Rez.Props.C83_complete_partial"
   ],
   "note": "False for packages without version, whatever the hash. Proved when the identity hash tells reachable states apart and no requirement is weak or a conflict."
  },
  {
   "property": "C84",
   "status": "proved",
   "theorems": [
    "Rez.Props.C84_best_variant",
    "Rez.Props.C84_none_admitted"
   ],
   "note": "Full statement about the choice made beside given resolved packages, with the next two tie-breaks."
  },
  {
   "property": "C85",
   "status": "proved",
   "theorems": [
    "Rez.Props.C85_lru",
    "Rez.Props.C85_lfu",
    "Rez.Props.C85_fifo"
   ],
   "note": "Full statement for the three strategies."
  },
  {
   "property": "C86",
   "status": "partial",
   "theorems": [
    "Rez.Props.C86_entries_false",
    "Rez.Props.C86_evictions_false",
    "Rez.Props.C86_lookups_partial"
   ],
   "note": "False for entries and evictions; proved for lookups."
  },
  {
   "property": "C87",
   "status": "partial",
   "theorems": [
    "Rez.Props.C87_overflow_false",
    "Rez.Props.C87_found_partial"
   ],
   "note": "False when timestamp plus time to live overflows 64 bits; proved otherwise."
  },
  {
   "property": "C88",
   "status": "partial",
   "theorems": [
    "Rez.Props.C88_contains",
    "Rez.Props.C88_size_false"
   ],
   "note": "contains_key proved; size false."
  },
  {
   "property": "C89",
   "status": "partial",
   "theorems": [
    "Rez.Props.C89_limit_false"
   ],
   "note": "False for every limit."
  },
  {
   "property": "C90",
   "status": "partial",
   "theorems": [
    "Rez.Props.C90_cleanup_partial",
    "Rez.Props.C90_restart_false"
   ],
   "note": "Full statement within one process; false after a restart."
  },
  {
   "property": "C91",
   "status": "partial",
   "theorems": [
    "Rez.Props.C91_lookups_partial",
    "Rez.Props.C91_entries_false"
   ],
   "note": "Lookups proved; entries false."
  },
  {
   "property": "C92",
   "status": "partial",
   "theorems": [
    "Rez.Props.C92_current_partial",
    "Rez.Props.C92_subsecond_false"
   ],
   "note": "False within a second; proved up to that, in any state."
  },
  {
   "property": "C93",
   "status": "partial",
   "theorems": [
    "Rez.Props.C93_stale_false",
    "Rez.Props.C93_disk_false",
    "Rez.Props.C93_memory_partial"
   ],
   "note": "False; what the memory level counts is proved."
  },
  {
   "property": "C94",
   "status": "partial",
   "theorems": [
    "Rez.Props.C94_text_partial",
    "Rez.Props.C94_attribute_false"
   ],
   "note": "False with attributes; proved for handles without attributes whose name and version have no comma."
  },
  {
   "property": "C95",
   "status": "partial",
   "theorems": [
    "Rez.Props.C95_crashed_copy_false"
   ],
   "note": "False in every case: the theorem shows that no later history brings the variant back."
  },
  {
   "property": "C96",
   "status": "partial",
   "theorems": [
    "Rez.Props.C96_remove_partial",
    "Rez.Props.C96_twice_false"
   ],
   "note": "Proved when one entry holds the variant. Refuted in general: a variant added while a reader is writing its metadata anew gets a second entry, and a removal takes only one of the two (C96_twice_false, in a reachable state with nothing running)."
  },
  {
   "property": "C97",
   "status": "partial",
   "theorems": [
    "Rez.Props.C97_reader_crash_false",
    "Rez.Props.C97_read_partial"
   ],
   "note": "False if the process dies inside; proved for lookups that end."
  },
  {
   "property": "C98",
   "status": "proved",
   "theorems": [
    "Rez.Props.C98_first",
    "Rez.Props.C98_default"
   ],
   "note": ""
  },
  {
   "property": "C99",
   "status": "partial",
   "theorems": [
    "Rez.Props.C99_range",
    "Rez.Props.C99_ignored_false",
    "Rez.Props.C99_other_family_false",
    "Rez.Props.C99_time",
    "Rez.Props.C99_package_time",
    "Rez.Props.C99_package_range",
    "Rez.Props.C99_texts"
   ],
   "note": "Range rules of rez-next-package-filter proved exact; glob, regex and timestamp rules ignore their family, and range rules of rez-next-package ignore the name: refuted. Meaning of range and timestamp rules proved."
  },
  {
   "property": "C100",
   "status": "partial",
   "theorems": [
    "Rez.Props.C100_glob_partial",
    "Rez.Props.C100_sound_partial",
    "Rez.Props.C100_lines_false",
    "Rez.Props.C100_version_false"
   ],
   "note": "Assumes the regex engine understands literals, dot and dot-star (EngineOk, shown satisfiable). Proved for patterns without backslash and one-line texts; refuted for texts with line feeds and for the version field."
  },
  {
   "property": "C101",
   "status": "partial",
   "theorems": [
    "Rez.Props.C101_shell_partial",
    "Rez.Props.C101_vars_false"
   ],
   "note": "False for variables; proved for aliases, commands, scripts, messages."
  },
  {
   "property": "C102",
   "status": "partial",
   "theorems": [
    "Rez.Props.C102_statement_partial",
    "Rez.Props.C102_lines",
    "Rez.Props.C102_error",
    "Rez.Props.C102_named",
    "Rez.Props.C102_quote_false"
   ],
   "note": "Proved for statements whose texts have no quotes and line feeds; refuted for texts with a quote. Lines and errors proved in full."
  },
  {
   "property": "C103",
   "status": "partial",
   "theorems": [
    "Rez.Props.C103_expand_partial",
    "Rez.Props.C103_texts",
    "Rez.Props.C103_order_false",
    "Rez.Props.C103_dollar_false",
    "Rez.Props.C103_prefix_false"
   ],
   "note": "Proved for {name} references among plain characters; refuted for nested braces and $NAME."
  },
  {
   "property": "C104",
   "status": "partial",
   "theorems": [
    "Rez.Props.C104_merge_partial",
    "Rez.Props.C104_unset_false"
   ],
   "note": "False for unset variables; the rest proved."
  },
  {
   "property": "C105",
   "status": "partial",
   "theorems": [
    "Rez.Props.C105_new_partial",
    "Rez.Props.C105_reuse_false"
   ],
   "note": "Proved for a new executor; false for one used before."
  },
  {
   "property": "C106",
   "status": "partial",
   "theorems": [
    "Rez.Props.C106_rex",
    "Rez.Props.C106_context_false"
   ],
   "note": "Proved for the scripts of rez-next-rex in all five shells; false for those of resolved contexts."
  },
  {
   "property": "C107",
   "status": "partial",
   "theorems": [
    "Rez.Props.C107_roundtrip",
    "Rez.Props.C107_crash_false",
    "Rez.Props.C107_crash_partial",
    "Rez.Props.C107_mode"
   ],
   "note": "Round trip proved for every YAML codec that reads back what it writes; false for a crash inside save over an older suite; a crash into an empty directory proved harmless."
  },
  {
   "property": "C108",
   "status": "partial",
   "theorems": [
    "Rez.Props.C108_first",
    "Rez.Props.C108_found",
    "Rez.Props.C108_listed_partial",
    "Rez.Props.C108_marker_false"
   ],
   "note": "First match and soundness proved; a directory that only has the marker of a suite hides later ones."
  },
  {
   "property": "C109",
   "status": "partial",
   "theorems": [
    "Rez.Props.C109_key",
    "Rez.Props.C109_set_partial",
    "Rez.Props.C109_local",
    "Rez.Props.C109_underscore_false",
    "Rez.Props.C109_order_false",
    "Rez.Props.C109_lock_false"
   ],
   "note": "Proved for variables of which none leads through another; false for keys with an underscore, for variables leading through each other, and for the lock."
  },
  {
   "property": "C110",
   "status": "partial",
   "theorems": [
    "Rez.Props.C110_load",
    "Rez.Props.C110_config_file_false",
    "Rez.Props.C110_user_false",
    "Rez.Props.C110_home",
    "Rez.Props.C110_split"
   ],
   "note": "Environment over files and first readable file proved; REZ_CONFIG_FILE with a slash is never searched and user files come last: refuted."
  },
  {
   "property": "C111",
   "status": "partial",
   "theorems": [
    "Rez.Props.C111_scan",
    "Rez.Props.C111_unknown",
    "Rez.Props.C111_stale_false"
   ],
   "note": "Proved right after scan or list_packages and for families not yet met; false for families met before."
  },
  {
   "property": "C112",
   "status": "partial",
   "theorems": [
    "Rez.Props.C112_layers",
    "Rez.Props.C112_ends",
    "Rez.Props.C112_graph",
    "Rez.Props.C112_graph_false",
    "Rez.Props.C112_dependents",
    "Rez.Props.C112_complete_partial",
    "Rez.Props.C112_dependents_false",
    "Rez.Props.C112_paths_false"
   ],
   "note": "Layers, distances and termination proved for every graph; the graph only holds the tree of first visits. Dependents are found by text containment in the first version directory only: refuted in general, proved complete under a stated condition."
  },
  {
   "property": "C113",
   "status": "partial",
   "theorems": [
    "Rez.Props.C113_plugins",
    "Rez.Props.C113_exact_partial",
    "Rez.Props.C113_plugins_false"
   ],
   "note": "Order and distinctness proved; exact when each family has one version directory or all say the same; false otherwise."
  },
  {
   "property": "C114",
   "status": "partial",
   "theorems": [
    "Rez.Props.C114_vars_partial",
    "Rez.Props.C114_inherit_false"
   ],
   "note": "Proved for commands, background, batch and spawn in all cases, for scripts and interactive shells when they inherit; these two always inherit: refuted."
  },
  {
   "property": "C115",
   "status": "partial",
   "theorems": [
    "Rez.Props.C115_env_partial",
    "Rez.Props.C115_inject_false"
   ],
   "note": "Proved for values without line breaks; a line break injects a variable: refuted."
  },
  {
   "property": "C116",
   "status": "partial",
   "theorems": [
    "Rez.Props.C116_load_partial",
    "Rez.Props.C116_ending_false",
    "Rez.Props.C116_crash_false",
    "Rez.Props.C116_name_false",
    "Rez.Props.C116_find"
   ],
   "note": "Proved for paths ending in .rxt or .rxtb and codecs that read what they write; other endings, crashes and short ids refuted."
  },
  {
   "property": "C117",
   "status": "partial",
   "theorems": [
    "Rez.Props.C117_expand_partial",
    "Rez.Props.C117_export_partial",
    "Rez.Props.C117_unset_false",
    "Rez.Props.C117_order_false"
   ],
   "note": "Proved for names and values without $ { } and, for whole lines, variables that are set; unset variables and values with references refuted."
  },
  {
   "property": "C118",
   "status": "proved",
   "theorems": [
    "Rez.Props.C118_tools",
    "Rez.Props.C118_last"
   ],
   "note": "All packages and tool lists."
  },
  {
   "property": "C119",
   "status": "partial",
   "theorems": [
    "Rez.Props.C119_source",
    "Rez.Props.C119_copy_partial",
    "Rez.Props.C119_found",
    "Rez.Props.C119_succeeds",
    "Rez.Props.C119_self_false",
    "Rez.Props.C119_crash_false"
   ],
   "note": "Proved for source and destination apart, without sockets, pipes or devices; the frame at every crash point. A forced copy onto itself empties the package and a crash in a forced copy leaves neither package: refuted."
  },
  {
   "property": "C120",
   "status": "partial",
   "theorems": [
    "Rez.Props.C120_crash_partial",
    "Rez.Props.C120_moved_partial",
    "Rez.Props.C120_lost_false",
    "Rez.Props.C120_others_false",
    "Rez.Props.C120_layout_false"
   ],
   "note": "Proved at every crash point and at the end for destinations apart from every search path; otherwise the package is lost: refuted. Copies in other search paths are removed too, and packages in directories named name-version stay: refuted."
  },
  {
   "property": "C121",
   "status": "partial",
   "theorems": [
    "Rez.Props.C121_version_partial",
    "Rez.Props.C121_pruned",
    "Rez.Props.C121_family_partial",
    "Rez.Props.C121_reported",
    "Rez.Props.C121_preview_partial",
    "Rez.Props.C121_name_false",
    "Rez.Props.C121_dots_false",
    "Rez.Props.C121_force_false"
   ],
   "note": "Proved for names and versions that are one path component; an empty name, \".\" and \"..\" remove families or repositories, and force is never read: refuted."
  },
  {
   "property": "C122",
   "status": "partial",
   "theorems": [
    "Rez.Props.C122_spec_partial",
    "Rez.Props.C122_spec_false",
    "Rez.Props.C122_exact",
    "Rez.Props.C122_lowest",
    "Rez.Props.C122_latest_false",
    "Rez.Props.C122_move_partial",
    "Rez.Props.C122_self_false",
    "Rez.Props.C122_dry"
   ],
   "note": "Exact versions, crash safety, frame and dry run proved; without a version the lowest version is taken (proved), not the latest; forced moves onto itself lose the package; some specs are read wrongly: refuted."
  },
  {
   "property": "C123",
   "status": "partial",
   "theorems": [
    "Rez.Props.C123_only",
    "Rez.Props.C123_gone_partial",
    "Rez.Props.C123_ignored_partial",
    "Rez.Props.C123_ignored_false",
    "Rez.Props.C123_configured_false"
   ],
   "note": "Proved: nothing but what was asked for is removed; what was asked for is gone if it is in one search path; ignored-since proved when no version is in two paths, refuted otherwise and for configured paths."
  },
  {
   "property": "C124",
   "status": "partial",
   "theorems": [
    "Rez.Props.C124_relative",
    "Rez.Props.C124_date",
    "Rez.Props.C124_panic_false",
    "Rez.Props.C124_future_false",
    "Rez.Props.C124_overflow_false"
   ],
   "note": "Proved for non-negative amounts within the clock; a last character of several bytes panics, negative and very large numbers give times to come: refuted."
  },
  {
   "property": "C125",
   "status": "partial",
   "theorems": [
    "Rez.Props.C125_plain",
    "Rez.Props.C125_panic_false",
    "Rez.Props.C125_unexpanded_false",
    "Rez.Props.C125_name_false",
    "Rez.Props.C125_eaten_false"
   ],
   "note": "Only the case without wildcards holds. ** at the end panics, one star is never expanded, and a character after ** is lost: refuted."
  },
  {
   "property": "C126",
   "status": "partial",
   "theorems": [
    "Rez.Props.C126_listed",
    "Rez.Props.C126_hides_partial",
    "Rez.Props.C126_missing",
    "Rez.Props.C126_shows_partial",
    "Rez.Props.C126_back_partial",
    "Rez.Props.C126_history_partial",
    "Rez.Props.C126_early_partial",
    "Rez.Props.C126_absent_partial",
    "Rez.Props.C126_directory_false"
   ],
   "note": "Proved for every history when what has the name of a marker is a file; with a directory of that name the version stays listed: refuted."
  },
  {
   "property": "C127",
   "status": "partial",
   "theorems": [
    "Rez.Props.C127_crash_partial",
    "Rez.Props.C127_done_partial",
    "Rez.Props.C127_again_partial",
    "Rez.Props.C127_stale_false",
    "Rez.Props.C127_directory_false"
   ],
   "note": "Proved at every crash point when the marker is a file; a crash just before the last step leaves a marker that repeating does not remove, and a directory in the place of the marker leaves half a version listed: refuted."
  },
  {
   "property": "C128",
   "status": "partial",
   "theorems": [
    "Rez.Props.C128_only",
    "Rez.Props.C128_done_partial",
    "Rez.Props.C128_dry",
    "Rez.Props.C128_dry_false",
    "Rez.Props.C128_dots_false"
   ],
   "note": "Nothing else touched: proved in all cases. Completeness and count proved when no marker is named .ignore. or .ignore..; such a file stops the operation, and a dry run counts markers without versions: refuted."
  },
  {
   "property": "C129",
   "status": "partial",
   "theorems": [
    "Rez.Props.C129_readonly",
    "Rez.Props.C129_inside",
    "Rez.Props.C129_family_partial",
    "Rez.Props.C129_crash_false"
   ],
   "note": "Read-only and inside: proved in all cases. Family removal proved at its end; a crash inside leaves half a version listed: refuted."
  },
  {
   "property": "C130",
   "status": "partial",
   "theorems": [
    "Rez.Props.C130_found_partial",
    "Rez.Props.C130_families",
    "Rez.Props.C130_latest_false",
    "Rez.Props.C130_outside_false",
    "Rez.Props.C130_spelling_false",
    "Rez.Props.C130_payload"
   ],
   "note": "Soundness and completeness of exact lookups proved; lookups without a version depend on the listing order, names are not checked in lookups, directories such as v1 are listed and not found: refuted."
  },
  {
   "property": "C131",
   "status": "partial",
   "theorems": [
    "Rez.Props.C131_fresh",
    "Rez.Props.C131_gone",
    "Rez.Props.C131_get_partial",
    "Rez.Props.C131_latest_partial",
    "Rez.Props.C131_versions_partial",
    "Rez.Props.C131_names",
    "Rez.Props.C131_stats",
    "Rez.Props.C131_duplicate_false",
    "Rez.Props.C131_own_false",
    "Rez.Props.C131_called_latest_false",
    "Rez.Props.C131_spelling_false",
    "Rez.Props.C131_refresh_false",
    "Rez.Props.C131_stats_false",
    "Rez.Props.C131_variants_false",
    "Rez.Props.C131_variants_partial"
   ],
   "note": "Proved for distinct versions, none called latest, and directories with package files of their own only at one level; names, statistics and independence of the past without these. Two files for one version, a broken file above versions, a version called latest, other spellings, a failed refresh and variants under names with dashes: refuted."
  },
  {
   "property": "C132",
   "status": "partial",
   "theorems": [
    "Rez.Props.C132_find_partial",
    "Rez.Props.C132_limit_partial",
    "Rez.Props.C132_zero_false",
    "Rez.Props.C132_pattern_false",
    "Rez.Props.C132_range_false"
   ],
   "note": "Proved for patterns without regular expression characters and limits of at least one; a limit of zero gives one package, a point fits any character, ranges are compared as text: refuted."
  },
  {
   "property": "C133",
   "status": "partial",
   "theorems": [
    "Rez.Props.C133_partial",
    "Rez.Props.C133_dash_false",
    "Rez.Props.C133_spelling_false"
   ],
   "note": "Proved for names without dash and versions whose order is transitive; a package is dropped for another one with a dash, other spellings stay: refuted."
  },
  {
   "property": "C134",
   "status": "partial",
   "theorems": [
    "Rez.Props.C134_metadata_false",
    "Rez.Props.C134_plain_partial",
    "Rez.Props.C134_text_partial",
    "Rez.Props.C134_commands_false",
    "Rez.Props.C134_binary_partial",
    "Rez.Props.C134_toml_partial",
    "Rez.Props.C134_strict",
    "Rez.Props.C134_binary_text_false",
    "Rez.Props.C134_xml_partial",
    "Rez.Props.C134_xml_false",
    "Rez.Props.C134_names"
   ],
   "note": "Proved: nine fields through JSON and plain YAML without metadata, all written fields through binary and TOML files, name, version and description through XML without `<`; default file names. Refuted: files with metadata (the default) never load, other fields are lost, binary text never loads, XML texts with tags are cut, misread or panic. Nothing is proved of indented YAML."
  },
  {
   "property": "C135",
   "status": "partial",
   "theorems": [
    "Rez.Props.C135_one_reading_partial",
    "Rez.Props.C135_python_partial",
    "Rez.Props.C135_package_py_partial",
    "Rez.Props.C135_injection_false",
    "Rez.Props.C135_backslash_false",
    "Rez.Props.C135_bool_false",
    "Rez.Props.C135_lost_false"
   ],
   "note": "Proved for plain texts (quotes allowed where they are escaped), no flags, tests or empty functions. Quotes in requirements, backslashes, flags, tests, empty functions and unwritten fields: refuted."
  },
  {
   "property": "C136",
   "status": "partial",
   "theorems": [
    "Rez.Props.C136_exclude_partial",
    "Rez.Props.C136_include_partial",
    "Rez.Props.C136_false"
   ],
   "note": "Proved exactly for the fields that the filters know, in all formats but binary; other fields cannot be excluded or kept and binary files have all: refuted."
  },
  {
   "property": "C137",
   "status": "partial",
   "theorems": [
    "Rez.Props.C137_reads_partial",
    "Rez.Props.C137_accepts_partial",
    "Rez.Props.C137_chain_false",
    "Rez.Props.C137_or_false",
    "Rez.Props.C137_twice_false",
    "Rez.Props.C137_targets_false",
    "Rez.Props.C137_unpack_false",
    "Rez.Props.C137_format_false",
    "Rez.Props.C137_format_again_false",
    "Rez.Props.C137_format_braces_false",
    "Rez.Props.C137_format_bool_false",
    "Rez.Props.C137_spread_false",
    "Rez.Props.C137_format_version_false",
    "Rez.Props.C137_none_false",
    "Rez.Props.C137_repeat_false",
    "Rez.Props.C137_overflow_false",
    "Rez.Props.C137_list_tuple_false",
    "Rez.Props.C137_import_false",
    "Rez.Props.C137_function_false",
    "Rez.Props.C137_truth_false",
    "Rez.Props.C137_tests_false"
   ],
   "note": "Proved for every file within the common ground of Python and the program (a predicate on files, decided by running the reference semantics with a flag): exceptions, declared fields, acceptance and no panic. Outside it: nineteen refutations, each with a file that is misread, refused, overlooked or crashes."
  },
  {
   "property": "C138",
   "status": "partial",
   "theorems": [
    "Rez.Props.C138_commands_partial",
    "Rez.Props.C138_quote_false",
    "Rez.Props.C138_subscript_false",
    "Rez.Props.C138_late_false",
    "Rez.Props.C138_bool_false",
    "Rez.Props.C138_parts_false",
    "Rez.Props.C138_undefined_false"
   ],
   "note": "Proved for functions within the common ground whose variables are not changed later. Quotes, subscripts, late assignments, truth values, parts of versions and undefined names: refuted."
  },
  {
   "property": "C139",
   "status": "partial",
   "theorems": [
    "Rez.Props.C139_save_partial",
    "Rez.Props.C139_export_partial",
    "Rez.Props.C139_fields_false"
   ],
   "note": "Proved for plain texts (quotes allowed in descriptions and authors of exported files) and the fields that are written; the export without commands, flags and tests. Private build requirements and commands are not saved: refuted."
  },
  {
   "property": "C140",
   "status": "partial",
   "theorems": [
    "Rez.Props.C140_installed",
    "Rez.Props.C140_separate",
    "Rez.Props.C140_built",
    "Rez.Props.C140_built_home",
    "Rez.Props.C140_built_relative",
    "Rez.Props.C140_variants_partial",
    "Rez.Props.C140_variants_share",
    "Rez.Props.C140_variants_false",
    "Rez.Props.C140_outside_false",
    "Rez.Props.C140_home_false",
    "Rez.Props.C140_name_outside",
    "Rez.Props.C140_name_false",
    "Rez.Props.C140_chosen"
   ],
   "note": "Proved for builds without variants and for the build directories of variants. Installed variants share one directory, variants are built inside the installed package, and a path with ~ is not expanded: refuted."
  },
  {
   "property": "C141",
   "status": "partial",
   "theorems": [
    "Rez.Props.C141_variables",
    "Rez.Props.C141_options_partial",
    "Rez.Props.C141_options_false",
    "Rez.Props.C141_directories_partial",
    "Rez.Props.C141_directories_false"
   ],
   "note": "The order of the places is proved in full. A request cannot set the variables of the variant, and can hide the directories: refuted."
  },
  {
   "property": "C142",
   "status": "partial",
   "theorems": [
    "Rez.Props.C142_success",
    "Rez.Props.C142_failure",
    "Rez.Props.C142_result",
    "Rez.Props.C142_events_partial",
    "Rez.Props.C142_events_false",
    "Rez.Props.C142_undone_false",
    "Rez.Props.C142_calls"
   ],
   "note": "Success, failure and result are proved in full; events where no step gives an error. Missing end events and packages that stay installed: refuted."
  },
  {
   "property": "C143",
   "status": "proved",
   "theorems": [
    "Rez.Props.C143_skipped",
    "Rez.Props.C143_tests",
    "Rez.Props.C143_order"
   ],
   "note": "Tables of tests have different names (a HashMap)."
  },
  {
   "property": "C144",
   "status": "partial",
   "theorems": [
    "Rez.Props.C144_limit",
    "Rez.Props.C144_changed",
    "Rez.Props.C144_running_partial",
    "Rez.Props.C144_running_false"
   ],
   "note": "The limit on active builds is proved for all schedules, on running builds without cancelling and dropped waits. A cancelled build goes on beyond the limit: refuted."
  },
  {
   "property": "C145",
   "status": "partial",
   "theorems": [
    "Rez.Props.C145_numbers_partial",
    "Rez.Props.C145_reset_false",
    "Rez.Props.C145_dropped_false",
    "Rez.Props.C145_cancelled_false"
   ],
   "note": "Proved for schedules without reset and dropped waits. Panics after a reset, builds lost with a dropped wait and a successful build that counts as failed: refuted."
  },
  {
   "property": "C146",
   "status": "partial",
   "theorems": [
    "Rez.Props.C146_results",
    "Rez.Props.C146_returns",
    "Rez.Props.C146_cancelled_false",
    "Rez.Props.C146_dead_false"
   ],
   "note": "Results and returning are proved for all schedules. Cancelled builds that install and waits for dead tasks: refuted."
  },
  {
   "property": "C147",
   "status": "partial",
   "theorems": [
    "Rez.Props.C147_leftOut",
    "Rez.Props.C147_installed",
    "Rez.Props.C147_succeeds",
    "Rez.Props.C147_crash",
    "Rez.Props.C147_count",
    "Rez.Props.C147_ends_partial",
    "Rez.Props.C147_inside_false",
    "Rez.Props.C147_default_false",
    "Rez.Props.C147_nested_false",
    "Rez.Props.C147_stale_false",
    "Rez.Props.C147_itself_false"
   ],
   "note": "Proved for an install directory that is apart from the source. Refuted: endless copying into the source (the standard configuration in the directory of the package), names left out only at the top, files of earlier versions that stay, files emptied where source and install directory are one."
  },
  {
   "property": "C148",
   "status": "partial",
   "theorems": [
    "Rez.Props.C148_choice",
    "Rez.Props.C148_listed_false",
    "Rez.Props.C148_listed_partial",
    "Rez.Props.C148_script_false"
   ],
   "note": "The choice is proved for every package and source. Refuted: the listed type custom runs a script of that name; scripts called default or copy-only are not run."
  },
  {
   "property": "C149",
   "status": "partial",
   "theorems": [
    "Rez.Props.C149_build_partial",
    "Rez.Props.C149_stops_partial",
    "Rez.Props.C149_python_false",
    "Rez.Props.C149_optional_false",
    "Rez.Props.C149_npm_false",
    "Rez.Props.C149_pypi",
    "Rez.Props.C149_nodejs",
    "Rez.Props.C149_copied"
   ],
   "note": "Proved for every system but binary archives (see C155), on a machine whose project files and Python stay. Where nothing is started after a failure, Python with tests is left out. Refuted: Python tests, npm build and test, and cargo package cannot fail a build."
  },
  {
   "property": "C150",
   "status": "partial",
   "theorems": [
    "Rez.Props.C150_make_partial",
    "Rez.Props.C150_cargo_partial",
    "Rez.Props.C150_python_partial",
    "Rez.Props.C150_cmake_partial",
    "Rez.Props.C150_script_partial",
    "Rez.Props.C150_cmake_false",
    "Rez.Props.C150_script_false"
   ],
   "note": "Proved for make, cargo and Python for every directory that can be quoted; for cmake and scripts only for directories without blanks or special characters, and refuted otherwise."
  },
  {
   "property": "C151",
   "status": "partial",
   "theorems": [
    "Rez.Props.C151_expand_partial",
    "Rez.Props.C151_again_false",
    "Rez.Props.C151_variant_false"
   ],
   "note": "Proved for values without an opening brace. Refuted: values are expanded again; the variant index is always empty."
  },
  {
   "property": "C152",
   "status": "partial",
   "theorems": [
    "Rez.Props.C152_hosted_partial",
    "Rez.Props.C152_user_false",
    "Rez.Props.C152_ssh_partial",
    "Rez.Props.C152_ssh_false",
    "Rez.Props.C152_archive_partial",
    "Rez.Props.C152_archive_false",
    "Rez.Props.C152_elsewhere_false",
    "Rez.Props.C152_scheme_partial",
    "Rez.Props.C152_local_partial",
    "Rez.Props.C152_local_false",
    "Rez.Props.C152_fetch",
    "Rez.Props.C152_directory"
   ],
   "note": "Proved for repositories at the known places, ssh, web downloads and local paths within the stated fragments, and for what git is told to fetch. Refuted: users and tokens in URLs, git@host:path@ref, archives at the known places, references of repositories elsewhere, local paths that name a known place."
  },
  {
   "property": "C153",
   "status": "partial",
   "theorems": [
    "Rez.Props.C153_download_partial",
    "Rez.Props.C153_download_false",
    "Rez.Props.C153_dots_false"
   ],
   "note": "Proved where the server names a plain file. Refuted: a server can have any file written, with an absolute name or with dots."
  },
  {
   "property": "C154",
   "status": "partial",
   "theorems": [
    "Rez.Props.C154_requirements",
    "Rez.Props.C154_success_partial",
    "Rez.Props.C154_failure_partial",
    "Rez.Props.C154_missing_false",
    "Rez.Props.C154_range",
    "Rez.Props.C154_skip",
    "Rez.Props.C154_options_false",
    "Rez.Props.C154_options"
   ],
   "note": "Requirements are proved to be met before any build; success and failure are characterised where a build was asked for. Refuted: variants that do not exist are skipped, and five options have no effect."
  },
  {
   "property": "C155",
   "status": "partial",
   "theorems": [
    "Rez.Props.C155_checked",
    "Rez.Props.C155_refused",
    "Rez.Props.C155_installed",
    "Rez.Props.C155_fresh_partial",
    "Rez.Props.C155_crash",
    "Rez.Props.C155_stale_false",
    "Rez.Props.C155_prefix_false",
    "Rez.Props.C155_gap_false",
    "Rez.Props.C155_query_false",
    "Rez.Props.C155_case_false",
    "Rez.Props.C155_variables"
   ],
   "note": "The checks, what is installed and the crash frame are proved for every archive; exactness where the directory to unpack in is new. Refuted: files of earlier archives, prefixes that lead out of the archive, crashes between removal and copy, URLs with a query, digests in upper case."
  },
  {
   "property": "C156",
   "status": "proved",
   "theorems": [
    "Rez.Props.C156_variants",
    "Rez.Props.C156_once"
   ],
   "note": "All packages and choices."
  },
  {
   "property": "C157",
   "status": "partial",
   "theorems": [
    "Rez.Props.C157_success",
    "Rez.Props.C157_failure",
    "Rez.Props.C157_order",
    "Rez.Props.C157_dry",
    "Rez.Props.C157_variants_false",
    "Rez.Props.C157_unpushed_false",
    "Rez.Props.C157_status_false",
    "Rez.Props.C157_ignore_false",
    "Rez.Props.C157_crash_false",
    "Rez.Props.C157_dry_false",
    "Rez.Props.C157_options_false",
    "Rez.Props.C157_version_false",
    "Rez.Props.C157_vcs"
   ],
   "note": "Success, failure, order and the dry run are proved for every machine. Refuted: built variants stay after a failure, unpushed commits, a failing status is taken for a clean one, --ignore-existing-tag, a crash between tagging and pushing, dry runs that succeed where the release cannot, options without effect, packages without a version."
  },
  {
   "property": "C158",
   "status": "partial",
   "theorems": [
    "Rez.Props.C158_runs",
    "Rez.Props.C158_bad",
    "Rez.Props.C158_success",
    "Rez.Props.C158_dry",
    "Rez.Props.C158_dirty_false",
    "Rez.Props.C158_metadata_false",
    "Rez.Props.C158_tests_false",
    "Rez.Props.C158_dry_false",
    "Rez.Props.C158_told"
   ],
   "note": "The steps, their order, success and the dry run are proved for every machine. Refuted: changes in the repository and failing tests do not stop a release, a dry run always succeeds, and the recorded revision is looked up after tagging."
  },
  {
   "property": "C159",
   "status": "partial",
   "theorems": [
    "Rez.Props.C159_inside",
    "Rez.Props.C159_path",
    "Rez.Props.C159_result",
    "Rez.Props.C159_again_false",
    "Rez.Props.C159_payload_false",
    "Rez.Props.C159_variants_false",
    "Rez.Props.C159_self_false",
    "Rez.Props.C159_default_false",
    "Rez.Props.C159_user_false"
   ],
   "note": "Inside, path and result are proved. Refuted: released versions are written over, other files are not installed, variants whose digests agree in front share a directory, releasing in place empties the definition, the standard release directory is not used, ~user."
  },
  {
   "property": "C160",
   "status": "partial",
   "theorems": [
    "Rez.Props.C160_hg_partial",
    "Rez.Props.C160_hg_false",
    "Rez.Props.C160_git",
    "Rez.Props.C160_git_stays",
    "Rez.Props.C160_svn",
    "Rez.Props.C160_trunk_false",
    "Rez.Props.C160_branches",
    "Rez.Props.C160_branches_false"
   ],
   "note": "Git is proved over all histories, Subversion for what it prints. Mercurial finds a tag wherever its name is part of the printed list: proved, and so refuted as a test for the tag. Refuted: Subversion tags the trunk, whatever is released; branches that merely contain the words."
  },
  {
   "property": "C161",
   "status": "partial",
   "theorems": [
    "Rez.Props.C161_time",
    "Rez.Props.C161_format_false",
    "Rez.Props.C161_svn",
    "Rez.Props.C161_message_false",
    "Rez.Props.C161_hg_partial",
    "Rez.Props.C161_lines_false",
    "Rez.Props.C161_author_false"
   ],
   "note": "Subversion is proved but for its message (refuted). Mercurial is proved for authors and messages of one line and the documented form of the date; the form that the program prints is never read, several lines and a missing author mix up the fields, and a message can make it panic: refuted."
  },
  {
   "property": "C162",
   "status": "partial",
   "theorems": [
    "Rez.Props.C162_ends",
    "Rez.Props.C162_levels",
    "Rez.Props.C162_printed",
    "Rez.Props.C162_graph",
    "Rez.Props.C162_dot",
    "Rez.Props.C162_graph_false",
    "Rez.Props.C162_version_false",
    "Rez.Props.C162_nothing",
    "Rez.Props.C162_nothing_false"
   ],
   "note": "Ending, levels, printed lines and edges are proved for every set of packages. Refuted: edges between listed packages are missing from the graph, requirements with a version are not recognised, and the command asks the repositories for a family with an empty name, so that it never finds a dependent."
  },
  {
   "property": "C163",
   "status": "partial",
   "theorems": [
    "Rez.Props.C163_words",
    "Rez.Props.C163_fish_partial",
    "Rez.Props.C163_fish_false",
    "Rez.Props.C163_alias",
    "Rez.Props.C163_alias_star",
    "Rez.Props.C163_script",
    "Rez.Props.C163_alias_command"
   ],
   "note": "bash and zsh: proved for all arguments and for aliases without other uses of $. fish: proved without backslashes, refuted with one at the end."
  },
  {
   "property": "C164",
   "status": "partial",
   "theorems": [
    "Rez.Props.C164_vars",
    "Rez.Props.C164_unset_false",
    "Rez.Props.C164_zsh_false"
   ],
   "note": "The value of every variable is proved. Refuted: variables that packages unset are inherited from the caller; a ZDOTDIR of the user hides the script from zsh."
  },
  {
   "property": "C165",
   "status": "partial",
   "theorems": [
    "Rez.Props.C165_both",
    "Rez.Props.C165_prints",
    "Rez.Props.C165_code",
    "Rez.Props.C165_left_partial",
    "Rez.Props.C165_left_false",
    "Rez.Props.C165_killed_false",
    "Rez.Props.C165_shell",
    "Rez.Props.C165_names",
    "Rez.Props.C165_start",
    "Rez.Props.C165_shows"
   ],
   "note": "Refusal, printing and exit codes are proved for every machine; what is left if the context could be written. Refuted: a context that cannot be written to its end stays; a killed interactive shell gives code 0."
  },
  {
   "property": "C166",
   "status": "partial",
   "theorems": [
    "Rez.Props.C166_export_partial",
    "Rez.Props.C166_export_false",
    "Rez.Props.C166_script",
    "Rez.Props.C166_dict"
   ],
   "note": "Proved for values without quotes, backslashes, dollars and backticks, and refuted for others."
  },
  {
   "property": "C167",
   "status": "partial",
   "theorems": [
    "Rez.Props.C167_all",
    "Rez.Props.C167_library",
    "Rez.Props.C167_command",
    "Rez.Props.C167_command_false",
    "Rez.Props.C167_dot_false"
   ],
   "note": "Proved for the library, for patterns whose other characters are plain. The command also chooses names of which a part matches: proved as such and refuted. A dot next to a star stands for any character: refuted."
  },
  {
   "property": "C168",
   "status": "partial",
   "theorems": [
    "Rez.Props.C168_order",
    "Rez.Props.C168_results",
    "Rez.Props.C168_code",
    "Rez.Props.C168_summary",
    "Rez.Props.C168_dry",
    "Rez.Props.C168_skipped_false",
    "Rez.Props.C168_missing_false"
   ],
   "note": "Order, results, codes and counts are proved for every machine. Refuted: all tests passed is said where none was run; names that do not exist are ignored."
  },
  {
   "property": "C169",
   "status": "partial",
   "theorems": [
    "Rez.Props.C169_paths",
    "Rez.Props.C169_here",
    "Rez.Props.C169_inplace",
    "Rez.Props.C169_elsewhere",
    "Rez.Props.C169_broken",
    "Rez.Props.C169_refused",
    "Rez.Props.C169_named_false",
    "Rez.Props.C169_latest_false",
    "Rez.Props.C169_version_false"
   ],
   "note": "Search paths, the package in the working directory and tests in place are proved. Refuted: another package in the working directory is tested instead of the one named, the latest version is the greatest text, requests with a version are not found."
  },
  {
   "property": "C170",
   "status": "partial",
   "theorems": [
    "Rez.Props.C170_words_partial",
    "Rez.Props.C170_single",
    "Rez.Props.C170_words_false"
   ],
   "note": "Proved for words without special characters and for single words. Refuted for quotes."
  },
  {
   "property": "C171",
   "status": "partial",
   "theorems": [
    "Rez.Props.C171_request",
    "Rez.Props.C171_refused",
    "Rez.Props.C171_name_false",
    "Rez.Props.C171_name"
   ],
   "note": "Proved but for the names: different requests can have the same name and so the same directory, refuted."
  },
  {
   "property": "C172",
   "status": "partial",
   "theorems": [
    "Rez.Props.C172_within",
    "Rez.Props.C172_copied_partial",
    "Rez.Props.C172_unresolved_false",
    "Rez.Props.C172_unversioned_false",
    "Rez.Props.C172_failed_false",
    "Rez.Props.C172_stale_false"
   ],
   "note": "Nothing outside the directory changes: proved for every stop. Packages: proved for versioned packages that the repositories have, in a new directory. Refuted: requests that cannot be resolved give an empty bundle and success, packages without a version are left out, errors of copying are ignored, packages of an older bundle stay."
  },
  {
   "property": "C173",
   "status": "partial",
   "theorems": [
    "Rez.Props.C173_script_partial",
    "Rez.Props.C173_path_false",
    "Rez.Props.C173_moved_false",
    "Rez.Props.C173_relative_false",
    "Rez.Props.C173_name_false"
   ],
   "note": "Proved for names that are names of variables. Refuted: the search path of the shell is lost, roots are fixed to the place where the bundle was made or relative to the working directory, a hyphen in a name is an error."
  },
  {
   "property": "C174",
   "status": "partial",
   "theorems": [
    "Rez.Props.C174_files",
    "Rez.Props.C174_yaml",
    "Rez.Props.C174_version_false"
   ],
   "note": "Files and lines are proved. Refuted: YAML reads versions as numbers."
  },
  {
   "property": "C175",
   "status": "partial",
   "theorems": [
    "Rez.Props.C175_named_partial",
    "Rez.Props.C175_latest",
    "Rez.Props.C175_other",
    "Rez.Props.C175_before_partial",
    "Rez.Props.C175_found",
    "Rez.Props.C175_previous_false",
    "Rez.Props.C175_version_false"
   ],
   "note": "Proved for names alone and for versions without a hyphen that begin with a digit. Without a second package it is the highest other version: proved, right for the latest, refuted for all others."
  },
  {
   "property": "C176",
   "status": "partial",
   "theorems": [
    "Rez.Props.C176_exact",
    "Rez.Props.C176_same",
    "Rez.Props.C176_lines",
    "Rez.Props.C176_changed",
    "Rez.Props.C176_order_false",
    "Rez.Props.C176_json_false",
    "Rez.Props.C176_fields_false"
   ],
   "note": "Exactness of the differences and of the verdict that there are none is proved. Refuted: orders are not compared; JSON output with a changed description is no JSON; authors and tools are missing from it."
  },
  {
   "property": "C177",
   "status": "partial",
   "theorems": [
    "Rez.Props.C177_package",
    "Rez.Props.C177_overview_false",
    "Rez.Props.C177_nameless",
    "Rez.Props.C177_repository_false"
   ],
   "note": "The versions of a package are proved. Refuted: the overview always tells of no packages; the packages of a repository are its directories."
  },
  {
   "property": "C178",
   "status": "proved",
   "theorems": [
    "Rez.Props.C178_found",
    "Rez.Props.C178_part",
    "Rez.Props.C178_none",
    "Rez.Props.C178_flags",
    "Rez.Props.C178_status_false",
    "Rez.Props.C178_letters_false"
   ],
   "note": "For every output. As it is stated, letters right before or after a version cut it (C178_letters_false: v18.17.0 gives 17.0), and whether the tool succeeded is not looked at (C178_status_false)."
  },
  {
   "property": "C179",
   "status": "partial",
   "theorems": [
    "Rez.Props.C179_bound",
    "Rez.Props.C179_succeeds",
    "Rez.Props.C179_stopped",
    "Rez.Props.C179_refused",
    "Rez.Props.C179_version",
    "Rez.Props.C179_name_false",
    "Rez.Props.C179_missing_false",
    "Rez.Props.C179_crash_false",
    "Rez.Props.C179_outside_false"
   ],
   "note": "Proved for names and versions that are single parts of a path, with every stop. Refuted: the built-in python is bound as python3, a tool that is nowhere is bound if a version is given, a crash leaves a directory that refuses the next try, names with .. write elsewhere."
  },
  {
   "property": "C180",
   "status": "partial",
   "theorems": [
    "Rez.Props.C180_known",
    "Rez.Props.C180_unknown",
    "Rez.Props.C180_inject_false",
    "Rez.Props.C180_quote_false",
    "Rez.Props.C180_command",
    "Rez.Props.C180_known_tools"
   ],
   "note": "Proved for texts without quotes, backslashes and line breaks; refuted for others, which can add statements or make the file unreadable."
  },
  {
   "property": "C181",
   "status": "partial",
   "theorems": [
    "Rez.Props.C181_first",
    "Rez.Props.C181_gcc_false",
    "Rez.Props.C181_request_false",
    "Rez.Props.C181_missing_false",
    "Rez.Props.C181_asked",
    "Rez.Props.C181_order",
    "Rez.Props.C181_gcc"
   ],
   "note": "What is taken is proved exactly. Refuted: gcc lines with other numbers, the version asked for is ignored, missing tools get version 1.0.0."
  },
  {
   "property": "C182",
   "status": "partial",
   "theorems": [
    "Rez.Props.C182_bound",
    "Rez.Props.C182_succeeds",
    "Rez.Props.C182_quick_partial",
    "Rez.Props.C182_dependencies_false",
    "Rez.Props.C182_shows",
    "Rez.Props.C182_requires_false",
    "Rez.Props.C182_quick_false",
    "Rez.Props.C182_overwrite_false"
   ],
   "note": "The file, nothing else, success and the quick start are proved. Refuted: packages are overwritten without being asked, dependencies are not bound, the quick start leaves requirements out and succeeds despite failures."
  },
  {
   "property": "C183",
   "status": "proved",
   "theorems": [
    "Rez.Props.C183_listed",
    "Rez.Props.C183_bound",
    "Rez.Props.C183_order_false"
   ],
   "note": "For every disk. The order is that of texts, as stated: 10.0 comes before 9.0 (C183_order_false)."
  },
  {
   "property": "C184",
   "status": "proved",
   "theorems": [
    "Rez.Props.C184_name",
    "Rez.Props.C184_bare",
    "Rez.Props.C184_extras_false"
   ],
   "note": "As stated. A wider reading is refuted for extras and environment markers, which stay in the name; specifications such as `a!==1` (no valid ones) are left out."
  },
  {
   "property": "C185",
   "status": "proved",
   "theorems": [
    "Rez.Props.C185_show",
    "Rez.Props.C185_scan_only",
    "Rez.Props.C185_metadata",
    "Rez.Props.C185_scan_finds",
    "Rez.Props.C185_optional_false"
   ],
   "note": "Both sources exactly. A wider reading is refuted for requirements in METADATA: the range stays in the name, and those of extras are required."
  },
  {
   "property": "C186",
   "status": "proved",
   "theorems": [
    "Rez.Props.C186_within",
    "Rez.Props.C186_stopped",
    "Rez.Props.C186_created",
    "Rez.Props.C186_dry",
    "Rez.Props.C186_refused",
    "Rez.Props.C186_calls",
    "Rez.Props.C186_specs",
    "Rez.Props.C186_args",
    "Rez.Props.C186_flags",
    "Rez.Props.C186_verbose",
    "Rez.Props.C186_python",
    "Rez.Props.C186_place",
    "Rez.Props.C186_last",
    "Rez.Props.C186_shared_false",
    "Rez.Props.C186_dependency_false",
    "Rez.Props.C186_nothing_false",
    "Rez.Props.C186_existing_false"
   ],
   "note": "Pip is a parameter that only changes the temporary directory. Wider readings are refuted: the second package holds the files of the first; dependencies are required but not made; nothing found is a success; an existing package is overwritten without --force and keeps old files."
  },
  {
   "property": "C187",
   "status": "proved",
   "theorems": [
    "Rez.Props.C187_program",
    "Rez.Props.C187_backslash_false"
   ],
   "note": "As stated. A wider reading is refuted for a backslash in the summary (not doubled)."
  },
  {
   "property": "C188",
   "status": "proved",
   "theorems": [
    "Rez.Props.C188_pattern",
    "Rez.Props.C188_excluded",
    "Rez.Props.C188_files",
    "Rez.Props.C188_dot_false",
    "Rez.Props.C188_inside_false",
    "Rez.Props.C188_above_false",
    "Rez.Props.C188_itself_false"
   ],
   "note": "As stated. Wider readings are refuted: the dot of `.git/**` fits any character (a family `agit` is left out); the directory `.git` itself is come to and its files examined; a repository below a directory `node_modules` is left out altogether. Other regular expression characters in patterns are not modelled."
  },
  {
   "property": "C189",
   "status": "proved",
   "theorems": [
    "Rez.Props.C189_directories",
    "Rez.Props.C189_fails",
    "Rez.Props.C189_counts"
   ],
   "note": "As stated, without links; what can be read at the start of a scan can be read throughout it."
  },
  {
   "property": "C190",
   "status": "proved",
   "theorems": [
    "Rez.Props.C190_result",
    "Rez.Props.C190_stale_false"
   ],
   "note": "As stated. Refuted without the assumption on times and lengths (a file written again with the same time and length)."
  },
  {
   "property": "C191",
   "status": "proved",
   "theorems": [
    "Rez.Props.C191_packages",
    "Rez.Props.C191_same",
    "Rez.Props.C191_root_false",
    "Rez.Props.C191_stale_false"
   ],
   "note": "As stated. Wider readings are refuted: a package.py in the root is missed, files that do not parse are not reported, `.git` is not left out, what was read once is never read again, the number of examined files adds up over scans."
  },
  {
   "property": "C192",
   "status": "proved",
   "theorems": [
    "Rez.Props.C192_bounded",
    "Rez.Props.C192_evict",
    "Rez.Props.C192_look",
    "Rez.Props.C192_found",
    "Rez.Props.C192_clear",
    "Rez.Props.C192_refresh",
    "Rez.Props.C192_directory_false"
   ],
   "note": "As stated. A wider reading is refuted: for a directory, which package is found depends on the order of the cache."
  },
  {
   "property": "C193",
   "status": "partial",
   "theorems": [
    "Rez.Props.C193_fields",
    "Rez.Props.C193_expression",
    "Rez.Props.C193_exact",
    "Rez.Props.C193_exact_false",
    "Rez.Props.C193_regex_false",
    "Rez.Props.C193_case_false"
   ],
   "note": "Proved for literal queries. Refuted: with fields asked for, a part of a name can score more than the name; --regex searches description and tools literally if no field is asked for, and puts the pattern in lower case."
  },
  {
   "property": "C194",
   "status": "proved",
   "theorems": [
    "Rez.Props.C194_only",
    "Rez.Props.C194_found",
    "Rez.Props.C194_answers",
    "Rez.Props.C194_fails",
    "Rez.Props.C194_date_false",
    "Rez.Props.C194_variant_false"
   ],
   "note": "As stated; repositories and dates are parameters. Wider readings are refuted: a date that cannot be read is dropped silently; --has-variant is ignored by family."
  },
  {
   "property": "C195",
   "status": "proved",
   "theorems": [
    "Rez.Props.C195_families",
    "Rez.Props.C195_newest_false"
   ],
   "note": "As stated. A wider reading is refuted: the package shown need not be the newest that matches."
  },
  {
   "property": "C196",
   "status": "proved",
   "theorems": [
    "Rez.Props.C196_latest",
    "Rez.Props.C196_family_false"
   ],
   "note": "As stated. A wider reading is refuted: a newer package of the family that does not match is not looked at."
  },
  {
   "property": "C197",
   "status": "partial",
   "theorems": [
    "Rez.Props.C197_limit",
    "Rez.Props.C197_sorted",
    "Rez.Props.C197_prefix",
    "Rez.Props.C197_latest_false",
    "Rez.Props.C197_date_false"
   ],
   "note": "Proved without --latest-only; with it the order is that of a hash map (refuted), and so is what the limit leaves. Sorting by date sorts by name (refuted)."
  },
  {
   "property": "C198",
   "status": "proved",
   "theorems": [
    "Rez.Props.C198_all",
    "Rez.Props.C198_values",
    "Rez.Props.C198_panics",
    "Rez.Props.C198_description",
    "Rez.Props.C198_version_false",
    "Rez.Props.C198_format_false"
   ],
   "note": "As stated. Wider readings are refuted: versions are printed for debugging in every format; an unknown format prints nothing and succeeds."
  },
  {
   "property": "C199",
   "status": "proved",
   "theorems": [
    "Rez.Props.C199_plain",
    "Rez.Props.C199_forms",
    "Rez.Props.C199_asked",
    "Rez.Props.C199_command",
    "Rez.Props.C199_operator_false",
    "Rez.Props.C199_context_false",
    "Rez.Props.C199_namespace_false"
   ],
   "note": "As stated. Wider readings are refuted: a request with an operator, such as python>=3.9, asks contexts, environments and solvers for a package named python-; namespaces and leading blanks are cut in the wrong place."
  },
  {
   "property": "C200",
   "status": "proved",
   "theorems": [
    "Rez.Props.C200_success",
    "Rez.Props.C200_env",
    "Rez.Props.C200_missing_false"
   ],
   "note": "As stated. A wider reading is refuted: a context for a package that does not exist says that it succeeded."
  },
  {
   "property": "C201",
   "status": "proved",
   "theorems": [
    "Rez.Props.C201_request",
    "Rez.Props.C201_answer",
    "Rez.Props.C201_excluded_false",
    "Rez.Props.C201_settings",
    "Rez.Props.C201_latest_false"
   ],
   "note": "As stated. Wider readings are refuted: excluded packages and constraints make no difference; told not to prefer the latest, a Python Solver takes the latest."
  },
  {
   "property": "C202",
   "status": "proved",
   "theorems": [
    "Rez.Props.C202_get",
    "Rez.Props.C202_find",
    "Rez.Props.C202_dot_false",
    "Rez.Props.C202_validate",
    "Rez.Props.C202_family_false",
    "Rez.Props.C202_versions",
    "Rez.Props.C202_commands",
    "Rez.Props.C202_case_false",
    "Rez.Props.C202_tools"
   ],
   "note": "As stated, where a . in a pattern stands for any character. Wider readings are refuted: two versions of one package are a valid result; names that differ in case only share a variable."
  },
  {
   "property": "C203",
   "status": "proved",
   "theorems": [
    "Rez.Props.C203_ends",
    "Rez.Props.C203_format",
    "Rez.Props.C203_summary",
    "Rez.Props.C203_details",
    "Rez.Props.C203_json",
    "Rez.Props.C203_options",
    "Rez.Props.C203_strict",
    "Rez.Props.C203_lenient_false"
   ],
   "note": "As stated; that the resolver answers a strict request only without failures is proved of its model. Wider readings are refuted: without --strict the command succeeds though a package does not exist."
  },
  {
   "property": "C204",
   "status": "proved",
   "theorems": [
    "Rez.Props.C204_last",
    "Rez.Props.C204_own",
    "Rez.Props.C204_path_false",
    "Rez.Props.C204_scripts",
    "Rez.Props.C204_unknown_shell",
    "Rez.Props.C204_activation",
    "Rez.Props.C204_tools",
    "Rez.Props.C204_context"
   ],
   "note": "As stated. Wider readings are refuted: of two packages that add to PATH only the last is on it; the root is /opt/name/version whatever the package says; an unknown shell gives an empty script."
  },
  {
   "property": "C205",
   "status": "proved",
   "theorems": [
    "Rez.Props.C205_versions",
    "Rez.Props.C205_lowest",
    "Rez.Props.C205_member",
    "Rez.Props.C205_latest_false"
   ],
   "note": "As stated: it is a lowest one. That it is a highest one is refuted."
  },
  {
   "property": "C206",
   "status": "proved",
   "theorems": [
    "Rez.Props.C206_latest",
    "Rez.Props.C206_get",
    "Rez.Props.C206_range_false",
    "Rez.Props.C206_versionless_false",
    "Rez.Props.C206_equal_false"
   ],
   "note": "C206_range_false: a range that cannot be read is passed over; C206_versionless_false: a package without version is within every range; C206_equal_false: get_package compares texts, so 1-0 does not find the equal version 1.0."
  },
  {
   "property": "C207",
   "status": "proved",
   "theorems": [
    "Rez.Props.C207_iter",
    "Rez.Props.C207_names",
    "Rez.Props.C207_families",
    "Rez.Props.C207_walk",
    "Rez.Props.C207_order_false",
    "Rez.Props.C207_broken_false",
    "Rez.Props.C207_unreadable",
    "Rez.Props.C207_fails"
   ],
   "note": "For iter_packages all packages of the family have versions: with some missing its comparison is no order and the sort may panic. C207_order_false: in walk_packages 9 comes after 11; C207_broken_false: a family with a broken package is listed and walked without it while asking for it fails."
  },
  {
   "property": "C208",
   "status": "proved",
   "theorems": [
    "Rez.Props.C208_text",
    "Rez.Props.C208_request",
    "Rez.Props.C208_completions",
    "Rez.Props.C208_released",
    "Rez.Props.C208_developer",
    "Rez.Props.C208_hyphen_false",
    "Rez.Props.C208_request_false"
   ],
   "note": "C208_hyphen_false: my-tool is the package my with version tool, and a version that cannot be read is dropped; C208_request_false: python-3.9 does not find 3.9.1."
  },
  {
   "property": "C209",
   "status": "proved",
   "theorems": [
    "Rez.Props.C209_version",
    "Rez.Props.C209_paths",
    "Rez.Props.C209_paths_false"
   ],
   "note": "C209_paths_false: with a tilde in the given paths, or an empty list of paths, and no version, the package is said not to be there."
  },
  {
   "property": "C210",
   "status": "proved",
   "theorems": [
    "Rez.Props.C210_file",
    "Rez.Props.C210_version",
    "Rez.Props.C210_latest",
    "Rez.Props.C210_none",
    "Rez.Props.C210_place",
    "Rez.Props.C210_handle",
    "Rez.Props.C210_below",
    "Rez.Props.C210_repository",
    "Rez.Props.C210_total",
    "Rez.Props.C210_family",
    "Rez.Props.C210_directory_false",
    "Rez.Props.C210_absolute_false",
    "Rez.Props.C210_repository_false"
   ],
   "note": "C210_directory_false: the URI of the directory of version 1.0, and package.py<1.0>, give the latest version; C210_absolute_false: absolute URIs are looked up below the working directory; C210_repository_false: get_package_from_repository does not look at the URI."
  },
  {
   "property": "C211",
   "status": "proved",
   "theorems": [
    "Rez.Props.C211_tokens",
    "Rez.Props.C211_version",
    "Rez.Props.C211_version_false",
    "Rez.Props.C211_intern",
    "Rez.Props.C211_two_turns"
   ],
   "note": "The wider reading, that the tokenizer and Version.parse accept the same texts, is refuted (C211_version_false): a leading v is accepted, blanks are refused, larger numbers are not counted."
  },
  {
   "property": "C212",
   "status": "proved",
   "theorems": [
    "Rez.Props.C212_string",
    "Rez.Props.C212_value",
    "Rez.Props.C212_items",
    "Rez.Props.C212_module",
    "Rez.Props.C212_one",
    "Rez.Props.C212_tuple_false",
    "Rez.Props.C212_nested_false",
    "Rez.Props.C212_empty_false",
    "Rez.Props.C212_escape_false",
    "Rez.Props.C212_quote_false",
    "Rez.Props.C212_number_false",
    "Rez.Props.C212_large"
   ],
   "note": "That the code binds keys to their values is refuted (C212_tuple_false: the name is a tuple). Outside the quantifier: nested objects are written as chained assignments (C212_nested_false), empty objects as nothing (C212_empty_false), backslashes are not escaped (C212_escape_false), texts of several lines that end in a quote give no expression (C212_quote_false), numbers from 2^63 on are rounded (C212_number_false)."
  },
  {
   "property": "C213",
   "status": "proved",
   "theorems": [
    "Rez.Props.C213_dump",
    "Rez.Props.C213_python",
    "Rez.Props.C213_schema_false"
   ],
   "note": "The texts in YAML and JSON are those of the libraries, which are parameters. Data that is no object and packages with a version that is no text are accepted (C213_schema_false)."
  },
  {
   "property": "C214",
   "status": "proved",
   "theorems": [
    "Rez.Props.C214_line",
    "Rez.Props.C214_block",
    "Rez.Props.C214_end_false",
    "Rez.Props.C214_break_false",
    "Rez.Props.C214_quote_false"
   ],
   "note": "Outside the quantifier: a missing final line break is added (C214_end_false), that of a single line is lost (C214_break_false), and a quote makes the text no scalar (C214_quote_false)."
  },
  {
   "property": "C215",
   "status": "proved",
   "theorems": [
    "Rez.Props.C215_cheapest",
    "Rez.Props.C215_queue",
    "Rez.Props.C215_solution",
    "Rez.Props.C215_without",
    "Rez.Props.C215_price",
    "Rez.Props.C215_negative_false"
   ],
   "note": "Costs are exact numbers in the model, f64 in the code. Refuted for negative heuristics (C215_negative_false: estimates are compared by their bits)."
  },
  {
   "property": "C216",
   "status": "proved",
   "theorems": [
    "Rez.Props.C216_families",
    "Rez.Props.C216_remaining",
    "Rez.Props.C216_remaining_cheapest",
    "Rez.Props.C216_conflict_idle",
    "Rez.Props.C216_estimate",
    "Rez.Props.C216_conflict_heavy",
    "Rez.Props.C216_nonneg",
    "Rez.Props.C216_weights",
    "Rez.Props.C216_adaptive",
    "Rez.Props.C216_adaptive_raises",
    "Rez.Props.C216_depth",
    "Rez.Props.C216_preference",
    "Rez.Props.C216_repeated_false",
    "Rez.Props.C216_depth_false",
    "Rez.Props.C216_preference_false"
   ],
   "note": "That the weights the program offers find the cheapest is refuted (C216_repeated_false, C216_depth_false, C216_preference_false)."
  },
  {
   "property": "C217",
   "status": "proved",
   "theorems": [
    "Rez.Props.C217_checksum",
    "Rez.Props.C217_crash",
    "Rez.Props.C217_fresh",
    "Rez.Props.C217_unchanged",
    "Rez.Props.C217_updated",
    "Rez.Props.C217_installs",
    "Rez.Props.C217_check",
    "Rez.Props.C217_same",
    "Rez.Props.C217_cleared",
    "Rez.Props.C217_lines",
    "Rez.Props.C217_given",
    "Rez.Props.C217_tag",
    "Rez.Props.C217_leftover_false",
    "Rez.Props.C217_older_false",
    "Rez.Props.C217_cleanup_false",
    "Rez.Props.C217_compact_false"
   ],
   "note": "For systems other than Windows. Wider readings are refuted: a file that lay in the temporary directory, whose name is known beforehand, can be installed instead (C217_leftover_false); an older version is called an update (C217_older_false); the temporary directory stays when the file cannot be moved (C217_cleanup_false); a description on one line is misread (C217_compact_false)."
  },
  {
   "property": "C218",
   "status": "proved",
   "theorems": [
    "Rez.Props.C218_kept",
    "Rez.Props.C218_learned",
    "Rez.Props.C218_frequency",
    "Rez.Props.C218_predicted",
    "Rez.Props.C218_range",
    "Rez.Props.C218_regular",
    "Rez.Props.C218_queued",
    "Rez.Props.C218_bound",
    "Rez.Props.C218_third",
    "Rez.Props.C218_recommended",
    "Rez.Props.C218_manager",
    "Rez.Props.C218_locks",
    "Rez.Props.C218_deadlock_false",
    "Rez.Props.C218_told",
    "Rez.Props.C218_average",
    "Rez.Props.C218_lost_false",
    "Rez.Props.C218_past_false",
    "Rez.Props.C218_stale_false",
    "Rez.Props.C218_accuracy_false"
   ],
   "note": "Numbers are exact in the model, f64 in the code; the square root and the score are parameters. Wider readings are refuted: an access and get_stats can deadlock (C218_deadlock_false); recommendations beyond the limit are lost (C218_lost_false) and past ones stay (C218_past_false); regularity can be that of accesses long forgotten (C218_stale_false); the accuracy can exceed one (C218_accuracy_false). C218_manager: the cache manager never says that a key was accessed, so through it nothing is ever predicted."
  },
  {
   "property": "C219",
   "status": "proved",
   "theorems": [
    "Rez.Props.C219_window",
    "Rez.Props.C219_measured",
    "Rez.Props.C219_outcomes",
    "Rez.Props.C219_recommended",
    "Rez.Props.C219_bounds",
    "Rez.Props.C219_history",
    "Rez.Props.C219_followed",
    "Rez.Props.C219_still",
    "Rez.Props.C219_monotone",
    "Rez.Props.C219_undisturbed",
    "Rez.Props.C219_manager",
    "Rez.Props.C219_locks",
    "Rez.Props.C219_shrinks_false",
    "Rez.Props.C219_rate_false",
    "Rez.Props.C219_counted_false"
   ],
   "note": "Numbers are exact in the model. Wider readings are refuted: with several calls at once a level can become smaller (C219_shrinks_false); the success rate can exceed one (C219_rate_false); settings that change nothing are counted (C219_counted_false). C219_manager: the cache manager records no snapshots, so through it nothing is ever tuned."
  },
  {
   "property": "C220",
   "status": "proved",
   "theorems": [
    "Rez.Props.C220_packages",
    "Rez.Props.C220_others",
    "Rez.Props.C220_first",
    "Rez.Props.C220_cursor",
    "Rez.Props.C220_panics",
    "Rez.Props.C220_versions",
    "Rez.Props.C220_names",
    "Rez.Props.C220_asked",
    "Rez.Props.C220_options",
    "Rez.Props.C220_program",
    "Rez.Props.C220_forward",
    "Rez.Props.C220_exit",
    "Rez.Props.C220_subcommand_false",
    "Rez.Props.C220_program_false",
    "Rez.Props.C220_blank_false"
   ],
   "note": "Wider readings are refuted: a subcommand that is being typed is not completed (C220_subcommand_false), no subcommands are offered after the name of the program (C220_program_false), and after a blank the word before it is completed again (C220_blank_false)."
  },
  {
   "property": "C221",
   "status": "proved",
   "theorems": [
    "Rez.Props.C221_scan",
    "Rez.Props.C221_once",
    "Rez.Props.C221_failed",
    "Rez.Props.C221_record",
    "Rez.Props.C221_kind",
    "Rez.Props.C221_plain",
    "Rez.Props.C221_summary",
    "Rez.Props.C221_validate",
    "Rez.Props.C221_fresh",
    "Rez.Props.C221_missing_false",
    "Rez.Props.C221_changed_false",
    "Rez.Props.C221_kind_false"
   ],
   "note": "On Unix; trees are finite. Wider readings are refuted: files stay listed when the directory is gone (C221_missing_false); changed files are valid, and of the same size not even warned of (C221_changed_false); scripts with an extension and versioned libraries are data (C221_kind_false)."
  },
  {
   "property": "C222",
   "status": "proved",
   "theorems": [
    "Rez.Props.C222_first",
    "Rez.Props.C222_path",
    "Rez.Props.C222_all",
    "Rez.Props.C222_executable",
    "Rez.Props.C222_output",
    "Rez.Props.C222_result",
    "Rez.Props.C222_writable",
    "Rez.Props.C222_untouched",
    "Rez.Props.C222_unset_false",
    "Rez.Props.C222_all_false",
    "Rez.Props.C222_timeout_false",
    "Rez.Props.C222_probe_false"
   ],
   "note": "On Unix. Wider readings are refuted: without PATH no absolute path is found (C222_unset_false); which_all repeats a path (C222_all_false); the time limit is ignored (C222_timeout_false); is_writable removes or empties a file called .write_test_tmp (C222_probe_false)."
  },
  {
   "property": "C223",
   "status": "proved",
   "theorems": [
    "Rez.Props.C223_entries",
    "Rez.Props.C223_once",
    "Rez.Props.C223_order",
    "Rez.Props.C223_deterministic",
    "Rez.Props.C223_apply",
    "Rez.Props.C223_identical",
    "Rez.Props.C223_counts",
    "Rez.Props.C223_mirror",
    "Rez.Props.C223_printed",
    "Rez.Props.C223_equal_false",
    "Rez.Props.C223_ranges_false",
    "Rez.Props.C223_conflict_false",
    "Rez.Props.C223_fails",
    "Rez.Props.C223_texts"
   ],
   "note": "Wider readings are refuted: equal versions written differently are a downgrade both ways (C223_equal_false); packages without an exact version are ignored (C223_ranges_false); a conflict counts as a package (C223_conflict_false)."
  },
  {
   "property": "C224",
   "status": "proved",
   "theorems": [
    "Rez.Props.C224_direct",
    "Rez.Props.C224_transitive",
    "Rez.Props.C224_names",
    "Rez.Props.C224_total",
    "Rez.Props.C224_printed",
    "Rez.Props.C224_far_false",
    "Rez.Props.C224_conflict_false",
    "Rez.Props.C224_variants_false",
    "Rez.Props.C224_panic_false",
    "Rez.Props.C224_range",
    "Rez.Props.C224_unreadable"
   ],
   "note": "For packages whose requirements are read without panic; one that is not makes every query panic (C224_panic_false). Wider readings are refuted: transitive goes one step (C224_far_false); a conflict counts as a dependency (C224_conflict_false); requirements of variants are not seen (C224_variants_false)."
  },
  {
   "property": "C225",
   "status": "proved",
   "theorems": [
    "Rez.Props.C225_specifier",
    "Rez.Props.C225_above_false",
    "Rez.Props.C225_requirement",
    "Rez.Props.C225_exact",
    "Rez.Props.C225_upper_false",
    "Rez.Props.C225_underscore_false",
    "Rez.Props.C225_forms_false",
    "Rez.Props.C225_install",
    "Rez.Props.C225_dependents",
    "Rez.Props.C225_hyphen_false",
    "Rez.Props.C225_program",
    "Rez.Props.C225_quote_false",
    "Rez.Props.C225_converted",
    "Rez.Props.C225_writes",
    "Rez.Props.C225_write"
   ],
   "note": "For all comparisons, versions, names without hyphen or underscore. Wider readings are refuted: > lets the bound in, an upper bound alone or a name with an underscore names another package, extras lose the version, quotes are not escaped."
  },
  {
   "property": "C226",
   "status": "proved",
   "theorems": [
    "Rez.Props.C226_safe",
    "Rez.Props.C226_payload_false",
    "Rez.Props.C226_served",
    "Rez.Props.C226_counts",
    "Rez.Props.C226_recovered",
    "Rez.Props.C226_asked",
    "Rez.Props.C226_inside",
    "Rez.Props.C226_add",
    "Rez.Props.C226_target",
    "Rez.Props.C226_named",
    "Rez.Props.C226_clean",
    "Rez.Props.C226_table",
    "Rez.Props.C226_printed",
    "Rez.Props.C226_prints",
    "Rez.Props.C226_log",
    "Rez.Props.C226_where",
    "Rez.Props.C226_home",
    "Rez.Props.C226_blocked",
    "Rez.Props.C226_outside_false",
    "Rez.Props.C226_underscore_false",
    "Rez.Props.C226_remove_false",
    "Rez.Props.C226_queue_false",
    "Rez.Props.C226_panic_false"
   ],
   "note": "For every file system, crash point, listing order and set of denied paths. Wider readings are refuted: no payload is ever cached, remove removes nothing, names with underscores or leading up name other places, cleaning removes the queue, the table can panic."
  },
  {
   "property": "C227",
   "status": "proved",
   "theorems": [
    "Rez.Props.C227_current",
    "Rez.Props.C227_directory",
    "Rez.Props.C227_exact",
    "Rez.Props.C227_lowest",
    "Rez.Props.C227_yaml",
    "Rez.Props.C227_python",
    "Rez.Props.C227_tests",
    "Rez.Props.C227_fields",
    "Rez.Props.C227_brief",
    "Rez.Props.C227_latest_false",
    "Rez.Props.C227_escape_false",
    "Rez.Props.C227_all_false",
    "Rez.Props.C227_commands_false"
   ],
   "note": "Texts are read back for those that need no quotes, and in Python for packages without tests to show. Wider readings are refuted: the package shown is not the latest (C227_latest_false), nothing is escaped (C227_escape_false), --all does not show all (C227_all_false), Python never shows the commands (C227_commands_false)."
  },
  {
   "property": "C228",
   "status": "proved",
   "theorems": [
    "Rez.Props.C228_source",
    "Rez.Props.C228_read",
    "Rez.Props.C228_request",
    "Rez.Props.C228_resolve",
    "Rez.Props.C228_tools",
    "Rez.Props.C228_which",
    "Rez.Props.C228_interpret",
    "Rez.Props.C228_shell",
    "Rez.Props.C228_summary",
    "Rez.Props.C228_nodes",
    "Rez.Props.C228_nodes_false",
    "Rez.Props.C228_graph",
    "Rez.Props.C228_draw",
    "Rez.Props.C228_ignored_false",
    "Rez.Props.C228_which_false",
    "Rez.Props.C228_uris_false",
    "Rez.Props.C228_leak_false",
    "Rez.Props.C228_python_false",
    "Rez.Props.C228_blanks_false",
    "Rez.Props.C228_escape_false",
    "Rez.Props.C228_arrow_false",
    "Rez.Props.C228_node_false",
    "Rez.Props.C228_prune_false",
    "Rez.Props.C228_created_false",
    "Rez.Props.C228_stale_false",
    "Rez.Props.C228_twice_false"
   ],
   "note": "For all contexts, options and map orders; JSON and YAML readers are parameters, cmd syntax is not modelled as a shell. Wider readings are refuted by the theorems with the ending _false."
  },
  {
   "property": "C229",
   "status": "proved",
   "theorems": [
    "Rez.Props.C229_session",
    "Rez.Props.C229_fails",
    "Rez.Props.C229_missing",
    "Rez.Props.C229_added",
    "Rez.Props.C229_tools",
    "Rez.Props.C229_list",
    "Rez.Props.C229_info",
    "Rez.Props.C229_paths",
    "Rez.Props.C229_create_false",
    "Rez.Props.C229_priority_false",
    "Rez.Props.C229_prefix_false",
    "Rez.Props.C229_race_false",
    "Rez.Props.C229_crash_false",
    "Rez.Props.C229_name_false",
    "Rez.Props.C229_marker_false"
   ],
   "note": "For all sequences of commands one after the other and a YAML library that reads back what it wrote. Wider readings are refuted: create over a suite, --priority, --prefix, two commands at once, a crash, info by name, marker-only directories (theorems ending in _false)."
  },
  {
   "property": "C230",
   "status": "proved",
   "theorems": [
    "Rez.Props.C230_hash",
    "Rez.Props.C230_maps",
    "Rez.Props.C230_identify",
    "Rez.Props.C230_kinds",
    "Rez.Props.C230_given",
    "Rez.Props.C230_variant",
    "Rez.Props.C230_parents",
    "Rez.Props.C230_listed",
    "Rez.Props.C230_parent",
    "Rez.Props.C230_parent_is",
    "Rez.Props.C230_texts",
    "Rez.Props.C230_family_false",
    "Rez.Props.C230_variants_false",
    "Rez.Props.C230_text_false",
    "Rez.Props.C230_dropped_false",
    "Rez.Props.C230_epsilon_false"
   ],
   "note": "For all resources and map orders; parents for versions that were read. Wider readings are refuted: packages without a version, listed variants, texts, unreadable requirements, a directory named epsilon (theorems ending in _false)."
  },
  {
   "property": "C231",
   "status": "proved",
   "theorems": [
    "Rez.Props.C231_parts",
    "Rez.Props.C231_trim",
    "Rez.Props.C231_next",
    "Rez.Props.C231_next_word",
    "Rez.Props.C231_union",
    "Rez.Props.C231_equal",
    "Rez.Props.C231_new",
    "Rez.Props.C231_hash",
    "Rez.Props.C231_hash_false",
    "Rez.Props.C231_parts_false",
    "Rez.Props.C231_trim_false",
    "Rez.Props.C231_next_false",
    "Rez.Props.C231_union_false",
    "Rez.Props.C231_equal_false"
   ],
   "note": "C231_parts, C231_trim, C231_next, C231_next_word, C231_union and C231_equal together are the statement. The _false theorems show that the restrictions are needed: points only divide, inf as a first piece, next that wraps or fails, unions with .. or the empty range, and ranges with the same contents that are not equal."
  },
  {
   "property": "C232",
   "status": "proved",
   "theorems": [
    "Rez.Props.C232_search",
    "Rez.Props.C232_python",
    "Rez.Props.C232_address",
    "Rez.Props.C232_format",
    "Rez.Props.C232_package",
    "Rez.Props.C232_section",
    "Rez.Props.C232_entries",
    "Rez.Props.C232_not_found",
    "Rez.Props.C232_command",
    "Rez.Props.C232_missing",
    "Rez.Props.C232_manual",
    "Rez.Props.C232_help_false",
    "Rez.Props.C232_base_false",
    "Rez.Props.C232_word_false",
    "Rez.Props.C232_zero_false",
    "Rez.Props.C232_configured_false"
   ],
   "note": "C232_search, C232_python, C232_address, C232_format, C232_command, C232_entries, C232_missing and C232_manual together are the statement, for packages whose versions can be put in an order and a sort that sorts. The _false theorems show wider readings fail: the command never shows the help text of the package, looks in ./local_packages instead of the configured paths, shows section 1 as section 0, fills in placeholders inside a directory name, and takes $BASEMENT for $BASE."
  },
  {
   "property": "C233",
   "status": "proved",
   "theorems": [
    "Rez.Props.C233_bash",
    "Rez.Props.C233_fish",
    "Rez.Props.C233_powershell",
    "Rez.Props.C233_manager",
    "Rez.Props.C233_modes",
    "Rez.Props.C233_tempfile",
    "Rez.Props.C233_detect",
    "Rez.Props.C233_status",
    "Rez.Props.C233_lists",
    "Rez.Props.C233_print",
    "Rez.Props.C233_told",
    "Rez.Props.C233_variable",
    "Rez.Props.C233_dash_false",
    "Rez.Props.C233_line_false",
    "Rez.Props.C233_temp_false",
    "Rez.Props.C233_ending_false",
    "Rez.Props.C233_cmd_false",
    "Rez.Props.C233_active_false",
    "Rez.Props.C233_unicode_false",
    "Rez.Props.C233_small_false"
   ],
   "note": "C233_bash, C233_fish, C233_powershell, C233_manager, C233_modes, C233_tempfile, C233_detect, C233_status, C233_lists, C233_print, C233_told and C233_variable together are the statement. The _false theorems show wider readings fail: names with dashes, requests with line breaks (run as commands), two scripts of one process in one temporary file, endings of files, cmd, the status after the script, values that are not Unicode, whole names in small letters."
  },
  {
   "property": "C234",
   "status": "proved",
   "theorems": [
    "Rez.Props.C234_get",
    "Rez.Props.C234_one",
    "Rez.Props.C234_counters",
    "Rez.Props.C234_since",
    "Rez.Props.C234_rate",
    "Rez.Props.C234_lookup",
    "Rez.Props.C234_reductions",
    "Rez.Props.C234_modes",
    "Rez.Props.C234_statuses",
    "Rez.Props.C234_file_false",
    "Rez.Props.C234_clear_false"
   ],
   "note": "C234_get, C234_one, C234_counters, C234_since, C234_rate, C234_lookup, C234_reductions, C234_modes and C234_statuses together are the statement; the rate is the exact quotient. The _false theorems show wider readings fail: a count read from a file, and counters over the life of a cache."
  },
  {
   "property": "C235",
   "status": "proved",
   "theorems": [
    "Rez.Props.C235_counters",
    "Rez.Props.C235_since",
    "Rez.Props.C235_sums",
    "Rez.Props.C235_metrics",
    "Rez.Props.C235_rate",
    "Rez.Props.C235_events",
    "Rez.Props.C235_bucket",
    "Rez.Props.C235_average",
    "Rez.Props.C235_percentiles",
    "Rez.Props.C235_benchmark",
    "Rez.Props.C235_order",
    "Rez.Props.C235_threads",
    "Rez.Props.C235_alone",
    "Rez.Props.C235_peak_false",
    "Rez.Props.C235_p95_false",
    "Rez.Props.C235_reset_false",
    "Rez.Props.C235_second_false"
   ],
   "note": "C235_counters, C235_since, C235_sums, C235_metrics, C235_rate, C235_events, C235_bucket, C235_average, C235_percentiles, C235_benchmark, C235_order, C235_threads and C235_alone together are the statement, for exact quotients and ranks that are parameters; the 95th percentile unless the samples that took no time alone reach its rank but not that of the 99th. The _false theorems show wider readings fail: the peak with overlapping reports, that excepted percentile, benchmarks that reset (panic), and the time after a reset."
  },
  {
   "property": "C236",
   "status": "proved",
   "theorems": [
    "Rez.Props.C236_level",
    "Rez.Props.C236_overall",
    "Rez.Props.C236_well",
    "Rez.Props.C236_range_false",
    "Rez.Props.C236_entry",
    "Rez.Props.C236_retention",
    "Rez.Props.C236_tiers",
    "Rez.Props.C236_recent_false",
    "Rez.Props.C236_kept_false"
   ],
   "note": "C236_level, C236_overall, C236_well, C236_entry, C236_retention and C236_tiers together are the statement, for exact quotients and a logarithm that does not fall. The _false theorems show wider readings fail: rates without lookups, efficiency above the memory limit, scores that favour recent use, and accesses that keep an entry."
  },
  {
   "property": "C237",
   "status": "proved",
   "theorems": [
    "Rez.Props.C237_plugins",
    "Rez.Props.C237_find",
    "Rez.Props.C237_types",
    "Rez.Props.C237_supported",
    "Rez.Props.C237_registered_false"
   ],
   "note": "C237_registered_false shows that a shell registered with one manager is not supported by the module function: every call makes its own manager."
  },
  {
   "property": "C238",
   "status": "proved",
   "theorems": [
    "Rez.Props.C238_made",
    "Rez.Props.C238_types",
    "Rez.Props.C238_calls",
    "Rez.Props.C238_lines",
    "Rez.Props.C238_events",
    "Rez.Props.C238_listed_false",
    "Rez.Props.C238_reported_false"
   ],
   "note": "C238_listed_false shows that the release hooks listed by the plugin manager are not the ones that can be made; C238_reported_false that an e-mail configuration that cannot be understood is replaced by one without receivers and not reported. The release itself calls no hooks (nothing in the repository does)."
  },
  {
   "property": "C239",
   "status": "proved",
   "theorems": [
    "Rez.Props.C239_flags",
    "Rez.Props.C239_dry",
    "Rez.Props.C239_modes",
    "Rez.Props.C239_valid",
    "Rez.Props.C239_released",
    "Rez.Props.C239_invalid_false",
    "Rez.Props.C239_misspelt_false",
    "Rez.Props.C239_versions",
    "Rez.Props.C239_order_false"
   ],
   "note": "C239_invalid_false: a package with package.yaml only is not valid but is released. C239_misspelt_false: a misspelt mode is a real release. C239_order_false: the order of texts is not the order of versions."
  },
  {
   "property": "C240",
   "status": "proved",
   "theorems": [
    "Rez.Props.C240_dry",
    "Rez.Props.C240_run",
    "Rez.Props.C240_context_false",
    "Rez.Props.C240_script",
    "Rez.Props.C240_escaped_false",
    "Rez.Props.C240_found",
    "Rez.Props.C240_tools_false"
   ],
   "note": "C240_tools_false: where every package has a name, no tool is ever found, because the repositories are asked for the packages named by the empty text; the paths given are not looked at. C240_context_false: the context plays no part. C240_escaped_false: a name with a line break adds a command to a wrapper."
  },
  {
   "property": "C241",
   "status": "proved",
   "theorems": [
    "Rez.Props.C241_text",
    "Rez.Props.C241_failed",
    "Rez.Props.C241_variants_false",
    "Rez.Props.C241_types",
    "Rez.Props.C241_detected",
    "Rez.Props.C241_scripts",
    "Rez.Props.C241_detected_false",
    "Rez.Props.C241_created_false"
   ],
   "note": "C241_text, C241_failed, C241_types, C241_detected and C241_scripts together are the statement. C241_variants_false: a package with variants is never built. C241_detected_false: with a build script next to files of another system the name is wrong, and build.py is not known. C241_created_false: python_rezbuild is a name that no system can be made from."
  },
  {
   "property": "C242",
   "status": "proved",
   "theorems": [
    "Rez.Props.C242_from_dict",
    "Rez.Props.C242_to_dict",
    "Rez.Props.C242_to_dict_false",
    "Rez.Props.C242_equal",
    "Rez.Props.C242_equal_false",
    "Rez.Props.C242_requirements",
    "Rez.Props.C242_conflict",
    "Rez.Props.C242_conflict_false",
    "Rez.Props.C242_python",
    "Rez.Props.C242_long",
    "Rez.Props.C242_python_false"
   ],
   "note": "C242_from_dict, C242_to_dict, C242_equal, C242_requirements, C242_conflict, C242_python and C242_long together are the statement. The _false theorems show wider readings fail: attributes that are lost, help in a dictionary, None, packages that look the same, versions that are equal but written differently, quotes in authors, private requirements."
  },
  {
   "property": "C243",
   "status": "proved",
   "theorems": [
    "Rez.Props.C243_listing",
    "Rez.Props.C243_searched",
    "Rez.Props.C243_package",
    "Rez.Props.C243_verbose",
    "Rez.Props.C243_about",
    "Rez.Props.C243_missing",
    "Rez.Props.C243_words_false"
   ],
   "note": "All packages, directories, settings and orders. Wider readings are refuted: words are only looked for as parts of texts (C243_words_false), and a directory that is not there makes the command fail (C243_missing). The choice of the highest version needs versions that compare transitively, as in C67."
  },
  {
   "property": "C244",
   "status": "proved",
   "theorems": [
    "Rez.Props.C244_roundtrip",
    "Rez.Props.C244_blanks",
    "Rez.Props.C244_read",
    "Rez.Props.C244_errors",
    "Rez.Props.C244_list",
    "Rez.Props.C244_breaks_false",
    "Rez.Props.C244_titles_false"
   ],
   "note": "All requests on one line, all texts, all later bundles. Requests with a line break are outside the claim; C244_breaks_false shows that they and all after them are lost. C244_titles_false shows that titles at any depth count."
  },
  {
   "property": "C245",
   "status": "proved",
   "theorems": [
    "Rez.Props.C245_paths",
    "Rez.Props.C245_find",
    "Rez.Props.C245_latest",
    "Rez.Props.C245_names",
    "Rez.Props.C245_error",
    "Rez.Props.C245_latest_false"
   ],
   "note": "All lists of directories that can be read. Versions must compare transitively (as in C67) and come from texts, as all versions of packages on disk do. C245_latest_false: the latest package need not be the newest over all directories."
  },
  {
   "property": "C246",
   "status": "proved",
   "theorems": [
    "Rez.Props.C246_answers",
    "Rez.Props.C246_unreadable",
    "Rez.Props.C246_rule",
    "Rez.Props.C246_bad",
    "Rez.Props.C246_pod",
    "Rez.Props.C246_neither_false"
   ],
   "note": "All calls, all dictionaries, all regular expression engines. C246_neither_false: the reading that what is not included is excluded is refuted by a dictionary without a name."
  },
  {
   "property": "C247",
   "status": "proved",
   "theorems": [
    "Rez.Props.C247_reads",
    "Rez.Props.C247_safe",
    "Rez.Props.C247_tags",
    "Rez.Props.C247_packages",
    "Rez.Props.C247_sorted",
    "Rez.Props.C247_written",
    "Rez.Props.C247_description",
    "Rez.Props.C247_order_false",
    "Rez.Props.C247_once_false",
    "Rez.Props.C247_description_false"
   ],
   "note": "All contents of repositories and all texts. Wider readings are refuted: C247_order_false (versions are compared as texts), C247_once_false (a local path that is also one of the settings), C247_description_false (a description with an equals sign is cut)."
  },
  {
   "property": "C248",
   "status": "proved",
   "theorems": [
    "Rez.Props.C248_plain",
    "Rez.Props.C248_env",
    "Rez.Props.C248_build",
    "Rez.Props.C248_usage",
    "Rez.Props.C248_empty",
    "Rez.Props.C248_before",
    "Rez.Props.C248_others",
    "Rez.Props.C248_dashes_false",
    "Rez.Props.C248_blank_false",
    "Rez.Props.C248_code_false"
   ],
   "note": "All arguments, all parsers. Wider readings are refuted: C248_dashes_false (arguments after a second double dash are dropped), C248_blank_false (blanks in arguments of a build), C248_code_false (exit codes of usage errors differ)."
  },
  {
   "property": "C249",
   "status": "proved",
   "theorems": [
    "Rez.Props.C249_loaded",
    "Rez.Props.C249_missing",
    "Rez.Props.C249_broken",
    "Rez.Props.C249_frame",
    "Rez.Props.C249_saved",
    "Rez.Props.C249_fallback_false",
    "Rez.Props.C249_formats_false",
    "Rez.Props.C249_includes_false"
   ],
   "note": "All contents of the directory. Wider readings are refuted: C249_fallback_false (no fallback from a broken package.py), C249_formats_false (package.json is not found), C249_includes_false (included modules are never collected)."
  },
  {
   "property": "C250",
   "status": "proved",
   "theorems": [
    "Rez.Props.C250_script",
    "Rez.Props.C250_path",
    "Rez.Props.C250_supported",
    "Rez.Props.C250_default",
    "Rez.Props.C250_agree",
    "Rez.Props.C250_ps1_false",
    "Rez.Props.C250_other_false"
   ],
   "note": "All texts and environments, not on Windows; upper and lower case of ASCII letters. Wider readings are refuted: C250_ps1_false (a script without a path), C250_other_false (other shells get the script of bash)."
  },
  {
   "property": "C251",
   "status": "proved",
   "theorems": [
    "Rez.Props.C251_contexts",
    "Rez.Props.C251_names",
    "Rez.Props.C251_attributes",
    "Rez.Props.C251_raises",
    "Rez.Props.C251_mode",
    "Rez.Props.C251_saved",
    "Rez.Props.C251_load",
    "Rez.Props.C251_tools",
    "Rez.Props.C251_unknown_tool_false"
   ],
   "note": "All histories of calls on a new suite. Loading back assumes that YAML reads what it wrote, as in C107. Errors of the file system are left out. C251_unknown_tool_false: tools that are hidden need not exist."
  },
  {
   "property": "C252",
   "status": "proved",
   "theorems": [
    "Rez.Props.C252_codes",
    "Rez.Props.C252_constants",
    "Rez.Props.C252_descriptions",
    "Rez.Props.C252_distinct",
    "Rez.Props.C252_unknown_false",
    "Rez.Props.C252_listed",
    "Rez.Props.C252_get",
    "Rez.Props.C252_raises",
    "Rez.Props.C252_force",
    "Rez.Props.C252_added",
    "Rez.Props.C252_contents",
    "Rez.Props.C252_removed",
    "Rez.Props.C252_again",
    "Rez.Props.C252_remove_iff",
    "Rez.Props.C252_ask",
    "Rez.Props.C252_others",
    "Rez.Props.C252_place",
    "Rez.Props.C252_hidden_false",
    "Rez.Props.C252_copying_false"
   ],
   "note": "All caches, handles and payloads, in the model of one directory of C47. Handles are compared for equality where the code compares their texts (C94). Wider readings are refuted: C252_hidden_false (names that begin with a dot are not listed), C252_copying_false (listed as found while it is copied), C252_unknown_false (numbers that are no code are described as not found)."
  }
 ]
}